import Verif.Snappr.PortProps
/-
The weighted round robin arbitrator: C50, C51, C54, C66 and C77, and C78.
-/
set_option autoImplicit false
namespace SST.Snappr

/-- What matters of one lane: its packets, whether it waits for credits, its credits and how often it is
up for arbitration. -/
structure LView where
  pending : List Pkt
  stalled : Bool
  credits : Nat
  cnt : Nat
deriving DecidableEq, Repr

/-- One lane of an arbitrator. -/
def Wrr.view (s : Wrr) (v : Nat) : LView :=
  ⟨(s.lanes v).pending, (s.lanes v).stalled, (s.lanes v).credits, s.portQ.count v + s.capQ.count v⟩

/-- A packet for the lane. -/
def LView.insert (l : LView) (p : Pkt) : LView :=
  if l.pending.isEmpty then
    if p.bytes ≤ l.credits then ⟨[p], l.stalled, l.credits - p.bytes, l.cnt + 1⟩ else ⟨[p], true, l.credits, l.cnt⟩
  else { l with pending := l.pending ++ [p] }

/-- Credits for the lane. -/
def LView.addCredits (l : LView) (n : Nat) : LView :=
  match l.stalled, l.pending with
  | true, p :: _ => if p.bytes ≤ l.credits + n then ⟨l.pending, false, l.credits + n - p.bytes, l.cnt + 1⟩ else { l with credits := l.credits + n }
  | _, _ => { l with credits := l.credits + n }

/-- The lane loses its first packet; `ps` are the others. -/
def LView.popped (l : LView) (ps : List Pkt) : LView :=
  match ps with
  | [] => ⟨[], l.stalled, l.credits, l.cnt - 1⟩
  | q :: _ => if q.bytes ≤ l.credits then ⟨ps, l.stalled, l.credits - q.bytes, l.cnt⟩ else ⟨ps, true, l.credits, l.cnt - 1⟩

theorem count_snoc (l : List Nat) (a v : Nat) : (l ++ [a]).count v = l.count v + if v = a then 1 else 0 := by
  rw [List.count_append]
  congr 1
  by_cases h : v = a
  · subst h; simp
  · rw [if_neg h]; exact List.count_eq_zero.mpr (by simpa using h)

theorem view_ext {s s' : Wrr} {v : Nat} (h1 : s'.lanes v = s.lanes v) (h2 : s'.portQ.count v + s'.capQ.count v = s.portQ.count v + s.capQ.count v) :
    s'.view v = s.view v := by
  unfold Wrr.view; rw [h1, h2]

theorem push_view (s : Wrr) (p : Pkt) (v : Nat) :
    (s.push p).view v = if v = p.vl then { s.view v with pending := (s.view v).pending ++ [p] } else s.view v := by
  by_cases h : v = p.vl
  · subst h
    rw [if_pos rfl]
    unfold Wrr.push Wrr.view
    simp only [setAt_same]
  · rw [if_neg h]
    unfold Wrr.push Wrr.view
    simp only [setAt_other _ _ _ _ h]

theorem admit_view (s : Wrr) (c : Nat) (p : Pkt) (v : Nat) :
    (s.admit c p).view v = if v = p.vl then ⟨(s.view v).pending, (s.view v).stalled, (s.view v).credits - p.bytes, (s.view v).cnt + 1⟩ else s.view v := by
  by_cases h : v = p.vl
  · subst h
    rw [if_pos rfl]
    unfold Wrr.admit
    simp only
    split
    · unfold Wrr.view; simp only [setAt_same, count_snoc, if_pos]; congr 1; omega
    · unfold Wrr.view; simp only [setAt_same, count_snoc, if_pos]; congr 1; omega
    · split
      · unfold Wrr.view; simp only [setAt_same, count_snoc, if_pos]; congr 1
      · unfold Wrr.view; simp only [setAt_same, count_snoc, if_pos]; congr 1; omega
  · rw [if_neg h]
    unfold Wrr.admit
    simp only
    split
    · unfold Wrr.view; simp only [setAt_other _ _ _ _ h, count_snoc, if_neg h]; congr 1
    · unfold Wrr.view; simp only [setAt_other _ _ _ _ h, count_snoc, if_neg h]; congr 1
    · split
      · unfold Wrr.view; simp only [setAt_other _ _ _ _ h, count_snoc, if_neg h]; congr 1
      · unfold Wrr.view; simp only [setAt_other _ _ _ _ h, count_snoc, if_neg h]; congr 1

theorem insert_view (s : Wrr) (c : Nat) (p : Pkt) (v : Nat) :
    (s.insert c p).view v = if v = p.vl then (s.view v).insert p else s.view v := by
  unfold Wrr.insert
  simp only
  by_cases h : v = p.vl
  · subst h
    rw [if_pos rfl]
    unfold LView.insert
    by_cases he : (s.lanes p.vl).pending.isEmpty = true
    · have hn : (s.lanes p.vl).pending = [] := by simpa using he
      have he' : (s.view p.vl).pending.isEmpty = true := he
      rw [if_pos he, if_pos he']
      by_cases hf : p.bytes ≤ (s.lanes p.vl).credits
      · rw [if_pos hf, if_pos (show p.bytes ≤ (s.view p.vl).credits from hf), push_view, if_pos rfl, admit_view, if_pos rfl]
        show (⟨(s.lanes p.vl).pending ++ [p], _, _, _⟩ : LView) = _
        rw [hn]; rfl
      · rw [if_neg hf, if_neg (show ¬ p.bytes ≤ (s.view p.vl).credits from hf), push_view, if_pos rfl]
        unfold Wrr.view
        simp only [setAt_same]
        rw [hn]; rfl
    · have he' : ¬ (s.view p.vl).pending.isEmpty = true := he
      rw [if_neg he, if_neg he', push_view, if_pos rfl]
  · rw [if_neg h]
    split
    · split
      · rw [push_view, if_neg h, admit_view, if_neg h]
      · rw [push_view, if_neg h]
        unfold Wrr.view
        simp only [setAt_other _ _ _ _ h]
    · rw [push_view, if_neg h]

theorem credit_view (s : Wrr) (w n v : Nat) :
    (s.addCredits w n).view v = if v = w then (s.view v).addCredits n else s.view v := by
  unfold Wrr.addCredits
  simp only
  by_cases h : v = w
  · subst h
    rw [if_pos rfl]
    unfold LView.addCredits
    cases hs : (s.lanes v).stalled with
    | false =>
      rw [if_neg (by simp)]
      have hs' : (s.view v).stalled = false := hs
      rw [hs']
      unfold Wrr.view
      simp only [setAt_same, hs]
    | true =>
      have hs' : (s.view v).stalled = true := hs
      rw [if_pos rfl, hs']
      cases hp : (s.lanes v).pending with
      | nil =>
        have hp' : (s.view v).pending = [] := hp
        rw [hp']
        unfold Wrr.view
        simp only [setAt_same, hs, hp]
      | cons p ps =>
        have hp' : (s.view v).pending = p :: ps := hp
        rw [hp']
        simp only
        by_cases hf : p.bytes ≤ (s.lanes v).credits + n
        · rw [if_pos hf, if_pos (show p.bytes ≤ (s.view v).credits + n from hf)]
          split
          · unfold Wrr.view; simp only [setAt_same, hp, count_snoc, if_pos]; congr 1
          · unfold Wrr.view; simp only [setAt_same, hp, count_snoc, if_pos]; congr 1; omega
        · rw [if_neg hf, if_neg (show ¬ p.bytes ≤ (s.view v).credits + n from hf)]
          unfold Wrr.view; simp only [setAt_same, hs, hp]
  · rw [if_neg h]
    split
    · split
      · unfold Wrr.view; simp only [setAt_other _ _ _ _ h]
      · split
        · split
          · unfold Wrr.view; simp only [setAt_other _ _ _ _ h, count_snoc, if_neg h]; congr 1
          · unfold Wrr.view; simp only [setAt_other _ _ _ _ h, count_snoc, if_neg h]; congr 1
        · unfold Wrr.view; simp only [setAt_other _ _ _ _ h]
    · unfold Wrr.view; simp only [setAt_other _ _ _ _ h]

theorem popNext_view (s : Wrr) (c w : Nat) (q : Pkt) (v : Nat) :
    (s.popNext c w q).view v = if v = w then
      (if q.bytes ≤ (s.view v).credits then ⟨(s.view v).pending, (s.view v).stalled, (s.view v).credits - q.bytes, (s.view v).cnt + 1⟩
        else { s.view v with stalled := true }) else s.view v := by
  unfold Wrr.popNext
  simp only
  by_cases h : v = w
  · subst h
    rw [if_pos rfl]
    by_cases hf : q.bytes ≤ (s.lanes v).credits
    · rw [if_pos hf, if_pos (show q.bytes ≤ (s.view v).credits from hf)]
      split
      · unfold Wrr.view; simp only [setAt_same, count_snoc, if_pos]; congr 1; omega
      · unfold Wrr.view; simp only [setAt_same, count_snoc, if_pos]; congr 1
      · unfold Wrr.view; simp only [setAt_same, count_snoc, if_pos]; congr 1; omega
    · rw [if_neg hf, if_neg (show ¬ q.bytes ≤ (s.view v).credits from hf)]
      split <;> (unfold Wrr.view; simp only [setAt_same])
  · rw [if_neg h]
    split
    · split <;> (unfold Wrr.view; simp only [setAt_other _ _ _ _ h, count_snoc, if_neg h]; congr 1)
    · split <;> (unfold Wrr.view; simp only [setAt_other _ _ _ _ h])

/-- The priority queues give a member. -/
def Chooses (choose : (Nat → WLane) → List Nat → Nat) : Prop := ∀ lanes q, q ≠ [] → choose lanes q ∈ q

theorem count_split (l : List Nat) (f : Nat → Bool) (v : Nat) : (l.filter f).count v + (l.filter fun x => !f x).count v = l.count v := by
  induction l with
  | nil => rfl
  | cons a l ih =>
    cases h : f a with
    | true =>
      rw [List.filter_cons_of_pos h, List.filter_cons_of_neg (by simp [h]), List.count_cons, List.count_cons]; omega
    | false =>
      rw [List.filter_cons_of_neg (by simp [h]), List.filter_cons_of_pos (by simp [h]), List.count_cons, List.count_cons]; omega

theorem count_erase' (l : List Nat) (a v : Nat) : (l.erase a).count v = l.count v - if v = a then 1 else 0 := by
  by_cases h : v = a
  · subst h; rw [List.count_erase_self, if_pos rfl]
  · rw [if_neg h, List.count_erase_of_ne h]; rfl

theorem pop_view {choose : (Nat → WLane) → List Nat → Nat} (hch : Chooses choose) (lbd : Nat) (s : Wrr) (c : Nat)
    (hne : ¬ (s.portQ = [] ∧ s.capQ = []))
    (hp : ∀ v, 0 < (s.view v).cnt → (s.view v).pending ≠ []) :
    ∃ w s' p ps, s.pop choose lbd c = some (s', p) ∧ 0 < (s.view w).cnt ∧ (s.view w).pending = p :: ps ∧
      ∀ v, s'.view v = if v = w then (s.view w).popped ps else s.view v := by
  let due := s.capQ.filter fun v => decide ((s.lanes v).nextFree ≤ c)
  let capQ := s.capQ.filter fun v => !decide ((s.lanes v).nextFree ≤ c)
  let portQ := s.portQ ++ due
  let vl := if portQ.isEmpty then choose s.lanes capQ else choose s.lanes portQ
  let s1 : Wrr := if portQ.isEmpty then ⟨s.lanes, [], capQ.erase vl⟩ else ⟨s.lanes, portQ.erase vl, capQ⟩
  have hcnt : ∀ v, portQ.count v + capQ.count v = (s.view v).cnt := by
    intro v
    have := count_split s.capQ (fun v => decide ((s.lanes v).nextFree ≤ c)) v
    show (s.portQ ++ due).count v + capQ.count v = s.portQ.count v + s.capQ.count v
    rw [List.count_append, ← this, Nat.add_assoc]
  have hne' : ¬ (portQ.isEmpty = true ∧ capQ.isEmpty = true) := by
    intro ⟨h1, h2⟩
    apply hne
    have h1 : portQ = [] := by simpa using h1
    have h2 : capQ = [] := by simpa using h2
    have hz : ∀ v, s.portQ.count v + s.capQ.count v = 0 := by
      intro v
      have := hcnt v
      rw [h1, h2] at this
      exact this.symm
    constructor
    · rw [List.eq_nil_iff_forall_not_mem]
      intro v hv
      have := List.count_pos_iff.mpr hv
      have := hz v
      omega
    · rw [List.eq_nil_iff_forall_not_mem]
      intro v hv
      have := List.count_pos_iff.mpr hv
      have := hz v
      omega
  have hmem : 0 < (s.view vl).cnt := by
    rw [← hcnt]
    show 0 < portQ.count vl + capQ.count vl
    by_cases he : portQ.isEmpty = true
    · have hv : vl = choose s.lanes capQ := if_pos he
      have : capQ ≠ [] := by
        intro hc
        exact hne' ⟨he, by rw [hc]; rfl⟩
      have := List.count_pos_iff.mpr (hch s.lanes capQ this)
      rw [hv]; omega
    · have hv : vl = choose s.lanes portQ := if_neg he
      have : portQ ≠ [] := by
        intro hc
        exact he (by rw [hc]; rfl)
      have := List.count_pos_iff.mpr (hch s.lanes portQ this)
      rw [hv]; omega
  have hs1 : ∀ v, s1.portQ.count v + s1.capQ.count v = (s.view v).cnt - if v = vl then 1 else 0 := by
    intro v
    rw [← hcnt v]
    by_cases he : portQ.isEmpty = true
    · have h1 : s1 = ⟨s.lanes, [], capQ.erase vl⟩ := if_pos he
      have h2 : portQ = [] := by simpa using he
      rw [h1, h2]
      simp only [count_erase', List.count_nil, Nat.zero_add]
    · have h1 : s1 = ⟨s.lanes, portQ.erase vl, capQ⟩ := if_neg he
      rw [h1]
      simp only [count_erase']
      by_cases hv : v = vl
      · rw [if_pos hv]
        have hmem' : vl ∈ portQ := by
          have hv : vl = choose s.lanes portQ := if_neg he
          rw [hv]
          exact hch _ _ (by intro hc; exact he (by rw [hc]; rfl))
        have := List.count_pos_iff.mpr hmem'
        rw [hv]
        omega
      · rw [if_neg hv]; rfl
  have hl1 : s1.lanes = s.lanes := by
    show (if portQ.isEmpty then _ else _ : Wrr).lanes = _
    split <;> rfl
  cases hpd : (s.lanes vl).pending with
  | nil => exact (hp vl hmem hpd).elim
  | cons p ps =>
    let v1 := if (s.lanes vl).sel = .max then { (s.lanes vl) with pending := ps, nextFree := advanceMax lbd c (s.lanes vl).nextFree p.bytes (s.lanes vl).byteDelay }
      else { (s.lanes vl) with pending := ps }
    have hv1 : v1.pending = ps ∧ v1.stalled = (s.lanes vl).stalled ∧ v1.credits = (s.lanes vl).credits := by
      show (if _ then _ else _ : WLane).pending = _ ∧ (if _ then _ else _ : WLane).stalled = _ ∧ (if _ then _ else _ : WLane).credits = _
      split <;> exact ⟨rfl, rfl, rfl⟩
    let s2 : Wrr := { s1 with lanes := setAt s1.lanes vl v1 }
    have hs2 : ∀ v, s2.view v = if v = vl then ⟨ps, (s.view vl).stalled, (s.view vl).credits, (s.view vl).cnt - 1⟩ else s.view v := by
      intro v
      show (⟨(setAt s1.lanes vl v1 v).pending, (setAt s1.lanes vl v1 v).stalled, (setAt s1.lanes vl v1 v).credits,
        s1.portQ.count v + s1.capQ.count v⟩ : LView) = _
      rw [hs1]
      by_cases hv : v = vl
      · rw [hv, setAt_same, if_pos rfl, if_pos rfl, hv1.1, hv1.2.1, hv1.2.2]; rfl
      · rw [setAt_other _ _ _ _ hv, if_neg hv, if_neg hv, hl1]; rfl
    have hpop : s.pop choose lbd c = match ps with | [] => some (s2, p) | q :: _ => some (s2.popNext c vl q, p) := by
      unfold Wrr.pop
      simp only
      rw [if_neg hne']
      split
      · rename_i hn
        exact absurd (hpd.symm.trans hn) (by simp)
      · rename_i p' ps' hn
        cases hpd.symm.trans hn
        cases ps <;> rfl
    cases ps with
    | nil =>
      refine ⟨vl, s2, p, [], hpop, hmem, hpd, ?_⟩
      intro v
      rw [hs2]; rfl
    | cons q qs =>
      refine ⟨vl, s2.popNext c vl q, p, q :: qs, hpop, hmem, hpd, ?_⟩
      intro v
      rw [popNext_view]
      by_cases hv : v = vl
      · rw [if_pos hv, if_pos hv, hv, hs2, if_pos rfl]
        simp only [LView.popped]
        split
        · congr 1; omega
        · rfl
      · rw [if_neg hv, if_neg hv, hs2, if_neg hv]

/-- What holds of a lane: an empty one waits for nothing; otherwise it either waits for credits, and its
first packet does not have enough, or it is up for arbitration once. -/
def LView.Ok (l : LView) : Prop :=
  match l.pending with
  | [] => l.stalled = false ∧ l.cnt = 0
  | p :: _ => if l.stalled then l.cnt = 0 ∧ l.credits < p.bytes else l.cnt = 1

theorem ok_insert {l : LView} (h : l.Ok) (p : Pkt) : (l.insert p).Ok ∧ (l.insert p).pending = l.pending ++ [p] := by
  obtain ⟨pending, stalled, credits, cnt⟩ := l
  cases pending with
  | nil =>
    obtain ⟨h1, h2⟩ : stalled = false ∧ cnt = 0 := h
    subst h1 h2
    unfold LView.insert
    simp only [List.isEmpty_nil, if_pos]
    split
    · exact ⟨rfl, rfl⟩
    · exact ⟨⟨rfl, by show credits < p.bytes; omega⟩, rfl⟩
  | cons q qs =>
    unfold LView.insert
    simp only [List.isEmpty_cons, Bool.false_eq_true, if_false]
    exact ⟨h, trivial⟩

theorem ok_credit {l : LView} (h : l.Ok) (n : Nat) : (l.addCredits n).Ok ∧ (l.addCredits n).pending = l.pending := by
  obtain ⟨pending, stalled, credits, cnt⟩ := l
  unfold LView.addCredits
  cases pending with
  | nil =>
    cases stalled <;> exact ⟨h, rfl⟩
  | cons q qs =>
    cases stalled with
    | false => exact ⟨h, rfl⟩
    | true =>
      obtain ⟨h1, h2⟩ : cnt = 0 ∧ credits < q.bytes := h
      subst h1
      simp only
      split
      · exact ⟨rfl, rfl⟩
      · exact ⟨⟨rfl, by simp only; omega⟩, rfl⟩

theorem ok_popped {l : LView} (h : l.Ok) {p : Pkt} {ps : List Pkt} (hp : l.pending = p :: ps) (hc : 0 < l.cnt) :
    (l.popped ps).Ok ∧ (l.popped ps).pending = ps := by
  obtain ⟨pending, stalled, credits, cnt⟩ := l
  simp only at hp hc
  subst hp
  cases stalled with
  | true =>
    obtain ⟨h1, _⟩ : cnt = 0 ∧ credits < p.bytes := h
    omega
  | false =>
    have h1 : cnt = 1 := h
    subst h1
    unfold LView.popped
    cases ps with
    | nil => exact ⟨⟨rfl, rfl⟩, rfl⟩
    | cons q qs =>
      simp only
      split
      · exact ⟨rfl, rfl⟩
      · exact ⟨⟨rfl, by simp only; omega⟩, rfl⟩

theorem ok_some {l : LView} (h : l.Ok) (hc : 0 < l.cnt) : l.pending ≠ [] := by
  intro hn
  unfold LView.Ok at h
  rw [hn] at h
  have : l.cnt = 0 := h.2
  omega

/-- What one lane has paid for the packet that is up for arbitration. -/
def LView.paid (l : LView) : Nat :=
  match l.pending with
  | [] => 0
  | p :: _ => if l.stalled then 0 else p.bytes

theorem paid_insert {l : LView} (h : l.Ok) (p : Pkt) : (l.insert p).credits + (l.insert p).paid = l.credits + l.paid := by
  obtain ⟨pending, stalled, credits, cnt⟩ := l
  cases pending with
  | nil =>
    obtain ⟨h1, h2⟩ : stalled = false ∧ cnt = 0 := h
    subst h1 h2
    unfold LView.insert
    simp only [List.isEmpty_nil, if_pos]
    split
    · simp only [LView.paid, Bool.false_eq_true, if_false]; omega
    · simp only [LView.paid, if_true]
  | cons q qs =>
    unfold LView.insert
    simp only [List.isEmpty_cons, Bool.false_eq_true, if_false]
    rfl

theorem paid_credit {l : LView} (n : Nat) : (l.addCredits n).credits + (l.addCredits n).paid = l.credits + l.paid + n := by
  obtain ⟨pending, stalled, credits, cnt⟩ := l
  unfold LView.addCredits
  cases pending with
  | nil => cases stalled <;> (simp only [LView.paid]; omega)
  | cons q qs =>
    cases stalled with
    | false => simp only [LView.paid, Bool.false_eq_true, if_false]; omega
    | true =>
      simp only
      split
      · simp only [LView.paid, Bool.false_eq_true, if_false, if_true]; omega
      · simp only [LView.paid, if_true]; omega

theorem paid_popped {l : LView} (h : l.Ok) {p : Pkt} {ps : List Pkt} (hp : l.pending = p :: ps) (hc : 0 < l.cnt) :
    (l.popped ps).credits + (l.popped ps).paid + p.bytes = l.credits + l.paid := by
  obtain ⟨pending, stalled, credits, cnt⟩ := l
  simp only at hp hc
  subst hp
  cases stalled with
  | true =>
    obtain ⟨h1, _⟩ : cnt = 0 ∧ credits < p.bytes := h
    omega
  | false =>
    unfold LView.popped
    cases ps with
    | nil => simp only [LView.paid, Bool.false_eq_true, if_false]; omega
    | cons q qs =>
      simp only
      split
      · simp only [LView.paid, Bool.false_eq_true, if_false]; omega
      · simp only [LView.paid, Bool.false_eq_true, if_false, if_true]; omega

/-- Each lane is as it should be and has only its own packets. -/
def Wrr.Ok (s : Wrr) : Prop := ∀ v, (s.view v).Ok ∧ ∀ p ∈ (s.view v).pending, p.vl = v

theorem wrr_ok0 (sel : Nat → Sel) (bd : Nat → Nat) (prio : Nat → Int) (credits : Nat → Nat) : (wrr0 sel bd prio credits).Ok :=
  fun _ => ⟨⟨rfl, rfl⟩, by intro p hp; cases hp⟩

/-- One operation: what happens to each lane. -/
theorem wrr_step {choose : (Nat → WLane) → List Nat → Nat} (hch : Chooses choose) (lbd : Nat) {s : Wrr} (h : s.Ok) (e : AEv) (v : Nat) :
    ((wrr choose lbd).step s e).1.Ok ∧
    onLane v ((wrr choose lbd).step s e).2 ++ (((wrr choose lbd).step s e).1.view v).pending = (s.view v).pending ++ given v [e] ∧
    (((wrr choose lbd).step s e).1.view v).credits + (((wrr choose lbd).step s e).1.view v).paid + bytesOn v ((wrr choose lbd).step s e).2 =
      (s.view v).credits + (s.view v).paid + returned v [e] := by
  cases e with
  | insert c p =>
    show (s.insert c p).Ok ∧ [] ++ ((s.insert c p).view v).pending = _ ∧ ((s.insert c p).view v).credits + ((s.insert c p).view v).paid + 0 = _ + 0
    refine ⟨?_, ?_, ?_⟩
    · intro w
      rw [insert_view]
      split
      · rename_i hw
        obtain ⟨o1, o2⟩ := ok_insert (h w).1 p
        refine ⟨o1, ?_⟩
        rw [o2]
        intro q hq
        rcases List.mem_append.mp hq with hq | hq
        · exact (h w).2 q hq
        · rw [List.mem_singleton] at hq; rw [hq]; exact hw.symm
      · exact h w
    · rw [insert_view, List.nil_append]
      split
      · rename_i hw
        rw [(ok_insert (h v).1 p).2]
        simp [given, hw]
      · rename_i hw
        simp [given, Ne.symm hw]
    · rw [insert_view]
      split
      · have := paid_insert (h v).1 p; omega
      · rfl
  | credit w n =>
    show (s.addCredits w n).Ok ∧ [] ++ ((s.addCredits w n).view v).pending = _ ++ [] ∧
      ((s.addCredits w n).view v).credits + ((s.addCredits w n).view v).paid + 0 = _ + returned v [.credit w n]
    refine ⟨?_, ?_, ?_⟩
    · intro u
      rw [credit_view]
      split
      · obtain ⟨o1, o2⟩ := ok_credit (h u).1 n
        exact ⟨o1, by rw [o2]; exact (h u).2⟩
      · exact h u
    · rw [credit_view, List.nil_append, List.append_nil]
      split
      · rw [(ok_credit (h v).1 n).2]
      · rfl
    · rw [credit_view]
      have hr : returned v [AEv.credit w n] = if w = v then n else 0 := by simp [returned]
      rw [hr]
      split
      · rename_i hv
        rw [if_pos hv.symm]
        have := paid_credit (l := s.view v) n; omega
      · rename_i hv
        rw [if_neg (Ne.symm hv)]
  | pop c =>
    by_cases he : (s.portQ.isEmpty && s.capQ.isEmpty) = true
    · have hst : (wrr choose lbd).step s (.pop c) = (s, []) := if_pos he
      rw [hst]
      refine ⟨h, ?_, rfl⟩
      show [] ++ _ = _ ++ []
      simp
    · have hne : ¬ (s.portQ = [] ∧ s.capQ = []) := by
        intro ⟨h1, h2⟩; rw [h1, h2] at he; exact he rfl
      obtain ⟨w, s', p, ps, h1, h2, h3, h4⟩ := pop_view hch lbd s c hne (fun v hv => ok_some (h v).1 hv)
      have hst : (wrr choose lbd).step s (.pop c) = (s', [p]) := by
        have hp : (wrr choose lbd).pop s c = some (s', p) := h1
        have he : ¬ (wrr choose lbd).empty s = true := he
        simp only [Arb.step]
        rw [if_neg he, hp]
      rw [hst]
      simp only
      obtain ⟨o1, o2⟩ := ok_popped (h w).1 h3 h2
      have hpv : p.vl = w := (h w).2 p (by rw [h3]; exact List.mem_cons_self ..)
      refine ⟨?_, ?_, ?_⟩
      · intro u
        rw [h4]
        split
        · rename_i hu
          refine ⟨o1, ?_⟩
          rw [o2]
          intro q hq
          rw [hu]
          exact (h w).2 q (by rw [h3]; exact List.mem_cons_of_mem _ hq)
        · exact h u
      · show onLane v [p] ++ _ = _ ++ []
        rw [h4, List.append_nil]
        split
        · rename_i hv
          rw [o2, hv, h3]
          simp [onLane, hpv]
        · rename_i hv
          have : onLane v [p] = [] := by
            unfold onLane; rw [List.filter_eq_nil_iff]; intro q hq
            rw [List.mem_singleton] at hq; rw [hq, hpv]; simp [Ne.symm hv]
          rw [this]; rfl
      · show _ + bytesOn v [p] = _ + 0
        have hb : bytesOn v [p] = if p.vl = v then p.bytes else 0 := by simp [bytesOn]
        rw [h4, hb, hpv]
        split
        · rename_i hv
          rw [if_pos hv.symm, hv]
          have := paid_popped (h w).1 h3 h2
          omega
        · rename_i hv
          rw [if_neg (Ne.symm hv)]

theorem wrr_run {choose : (Nat → WLane) → List Nat → Nat} (hch : Chooses choose) (lbd : Nat) (evs : List AEv) (s : Wrr) (h : s.Ok) (v : Nat) :
    ((wrr choose lbd).run s evs).1.Ok ∧
    onLane v ((wrr choose lbd).run s evs).2 ++ (((wrr choose lbd).run s evs).1.view v).pending = (s.view v).pending ++ given v evs ∧
    (((wrr choose lbd).run s evs).1.view v).credits + (((wrr choose lbd).run s evs).1.view v).paid + bytesOn v ((wrr choose lbd).run s evs).2 =
      (s.view v).credits + (s.view v).paid + returned v evs := by
  induction evs generalizing s with
  | nil => exact ⟨h, by simp [Arb.run, onLane, given], rfl⟩
  | cons e es ih =>
    obtain ⟨a1, a2, a3⟩ := wrr_step hch lbd h e v
    obtain ⟨b1, b2, b3⟩ := ih _ a1
    have hg : given v (e :: es) = given v [e] ++ given v es := by
      show given v ([e] ++ es) = _
      unfold given; rw [List.filterMap_append]
    have hr : returned v (e :: es) = returned v [e] + returned v es := by
      show returned v ([e] ++ es) = _
      unfold returned; rw [List.map_append, List.sum_append_nat]
    simp only [Arb.run]
    refine ⟨b1, ?_, ?_⟩
    · have hl : ∀ a b : List Pkt, onLane v (a ++ b) = onLane v a ++ onLane v b := by intro a b; unfold onLane; rw [List.filter_append]
      rw [hl, hg, List.append_assoc, b2, ← List.append_assoc, a2, List.append_assoc]
    · rw [bytesOn_append, hr]; omega

section
variable {choose : (Nat → WLane) → List Nat → Nat} (hch : Chooses choose) (lbd : Nat)
  (sel : Nat → Sel) (bd : Nat → Nat) (prio : Nat → Int) (credits : Nat → Nat)
include hch

/-- **C51** (snappr, weighted round robin). The packets of one lane leave in the order they came: those
that have left and those waiting are, in this order, those that came. -/
theorem C51_snappr_wrr (evs : List AEv) (v : Nat) :
    onLane v ((wrr choose lbd).run (wrr0 sel bd prio credits) evs).2 ++ (((wrr choose lbd).run (wrr0 sel bd prio credits) evs).1.lanes v).pending =
      given v evs :=
  (wrr_run hch lbd evs _ (wrr_ok0 sel bd prio credits) v).2.1

/-- **C50** (snappr, one port, weighted round robin). The credits of a lane, what its packet up for
arbitration has taken and the bytes that have left are the initial credits plus those that came back. -/
theorem C50_snappr_wrr (evs : List AEv) (v : Nat) :
    (((wrr choose lbd).run (wrr0 sel bd prio credits) evs).1.lanes v).credits + (((wrr choose lbd).run (wrr0 sel bd prio credits) evs).1.view v).paid +
      bytesOn v ((wrr choose lbd).run (wrr0 sel bd prio credits) evs).2 = credits v + returned v evs :=
  (wrr_run hch lbd evs _ (wrr_ok0 sel bd prio credits) v).2.2

/-- **C66** (snappr, weighted round robin). A lane with packets is up for arbitration, or its first
packet does not have enough credits. -/
theorem C66_snappr_wrr (evs : List AEv) (v : Nat) (p : Pkt) (ps : List Pkt)
    (h : (((wrr choose lbd).run (wrr0 sel bd prio credits) evs).1.lanes v).pending = p :: ps) :
    v ∈ ((wrr choose lbd).run (wrr0 sel bd prio credits) evs).1.portQ ∨ v ∈ ((wrr choose lbd).run (wrr0 sel bd prio credits) evs).1.capQ ∨
      (((wrr choose lbd).run (wrr0 sel bd prio credits) evs).1.lanes v).credits < p.bytes := by
  have ho := ((wrr_run hch lbd evs _ (wrr_ok0 sel bd prio credits) v).1 v).1
  generalize ((wrr choose lbd).run (wrr0 sel bd prio credits) evs).1 = s at *
  unfold LView.Ok at ho
  rw [show (s.view v).pending = p :: ps from h] at ho
  simp only at ho
  split at ho
  · exact .inr (.inr ho.2)
  · have hc : s.portQ.count v + s.capQ.count v = 1 := ho
    by_cases hm : v ∈ s.portQ
    · exact .inl hm
    · rw [List.count_eq_zero.mpr hm] at hc
      exact .inr (.inl (List.count_pos_iff.mp (by omega)))

end

/-- A weighted round robin arbitrator with `k` packets; `W` is their lanes. -/
def WrrHas (s : Wrr) (k : Nat) : Prop := s.Ok ∧ ∃ W : List Nat, W.length = k ∧ ∀ v, W.count v = (s.view v).pending.length

theorem wrr_law {choose : (Nat → WLane) → List Nat → Nat} (hch : Chooses choose) (lbd : Nat) : Law (wrr choose lbd) WrrHas where
  ins := by
    intro s k c p ⟨ho, W, h1, h2⟩
    refine ⟨(wrr_step hch lbd ho (.insert c p) 0).1, p.vl :: W, by simp [h1], ?_⟩
    intro v
    show _ = ((s.insert c p).view v).pending.length
    rw [insert_view]
    split
    · rename_i hv
      rw [(ok_insert (ho v).1 p).2, hv, List.count_cons_self, h2, List.length_append, List.length_singleton]
    · rename_i hv
      rw [List.count_cons_of_ne (Ne.symm hv), h2]
  cred := by
    intro s k w n ⟨ho, W, h1, h2⟩
    refine ⟨(wrr_step hch lbd ho (.credit w n) 0).1, W, h1, ?_⟩
    intro v
    show _ = ((s.addCredits w n).view v).pending.length
    rw [credit_view]
    split
    · rw [(ok_credit (ho v).1 n).2]; exact h2 v
    · exact h2 v
  pop := by
    intro s k c ⟨ho, W, h1, h2⟩ he
    have he : (s.portQ.isEmpty && s.capQ.isEmpty) = false := he
    have hne : ¬ (s.portQ = [] ∧ s.capQ = []) := by
      intro ⟨h1, h2⟩; rw [h1, h2] at he; cases he
    obtain ⟨w, s', p, ps, p1, p2, p3, p4⟩ := pop_view hch lbd s c hne (fun v hv => ok_some (ho v).1 hv)
    refine ⟨s', p, p1, ?_, W.erase w, ?_, ?_⟩
    · have := (wrr_step hch lbd ho (.pop c) 0).1
      have hst : (wrr choose lbd).step s (.pop c) = (s', [p]) := by
        have hp : (wrr choose lbd).pop s c = some (s', p) := p1
        have he : (wrr choose lbd).empty s = false := he
        simp only [Arb.step]
        rw [if_neg (by rw [he]; simp), hp]
      rw [hst] at this
      exact this
    · have : w ∈ W := List.count_pos_iff.mp (by rw [h2, p3]; simp)
      rw [List.length_erase_of_mem this, h1]
    · intro v
      rw [p4, count_erase', h2]
      split
      · rename_i hv
        rw [(ok_popped (ho w).1 p3 p2).2, hv, p3]
        rfl
      · rfl
  some_ := by
    intro s k ⟨ho, W, h1, h2⟩ he
    have he : (s.portQ.isEmpty && s.capQ.isEmpty) = false := he
    have hne : ¬ (s.portQ = [] ∧ s.capQ = []) := by
      intro ⟨h1, h2⟩; rw [h1, h2] at he; cases he
    obtain ⟨w, s', p, ps, p1, p2, p3, p4⟩ := pop_view hch lbd s 0 hne (fun v hv => ok_some (ho v).1 hv)
    have : w ∈ W := List.count_pos_iff.mp (by rw [h2, p3]; simp)
    have := List.length_pos_of_mem this
    omega

/-- A port with the weighted round robin arbitrator. -/
def wrrCfg (choose : (Nat → WLane) → List Nat → Nat) (byteDelay flit : Nat) (fc : Bool) : PCfg Wrr := ⟨wrr choose byteDelay, byteDelay, flit, fc⟩

theorem wrr_inv {choose : (Nat → WLane) → List Nat → Nat} (hch : Chooses choose) {bd flit : Nat} {fc : Bool} {sel : Nat → Sel}
    {lbd : Nat → Nat} {prio : Nat → Int} {credits : Nat → Nat} {s : Port Wrr} {t : Nat} {log : List Sent}
    (h : (wrrCfg choose bd flit fc).Reach (wrr0 sel lbd prio credits) s t log) : Inv (wrrCfg choose bd flit fc) WrrHas s t log :=
  reach_inv (C := wrrCfg choose bd flit fc) (wrr_law hch bd) ⟨wrr_ok0 _ _ _ _, [], rfl, fun _ => rfl⟩ h

section
variable {choose : (Nat → WLane) → List Nat → Nat} (hch : Chooses choose) {bd flit : Nat} {fc : Bool} {sel : Nat → Sel}
  {lbd : Nat → Nat} {prio : Nat → Int} {credits : Nat → Nat} {s : Port Wrr} {t : Nat} {log : List Sent}
  (h : (wrrCfg choose bd flit fc).Reach (wrr0 sel lbd prio credits) s t log)
include hch h

/-- **C54** (snappr, weighted round robin). The packets a port sends never overlap on its link. -/
theorem C54_snappr_wrr : log.Pairwise fun a b => a.start + a.pkt.bytes * bd + flit ≤ b.start := (wrr_inv hch h).apart

/-- **C66** (snappr port, weighted round robin). While a lane is up for arbitration, the port has an
arbitration scheduled for the moment its link is free, which has not passed. -/
theorem C66_snappr_wrr_port (hr : s.arb.portQ ≠ [] ∨ s.arb.capQ ≠ []) : s.sched = some s.nextFree ∧ t ≤ s.nextFree := by
  have hi := wrr_inv hch h
  have hb := hi.busy (by
    show (s.arb.portQ.isEmpty && s.arb.capQ.isEmpty) = false
    rcases hr with hr | hr
    · cases hq : s.arb.portQ with
      | nil => exact (hr hq).elim
      | cons a b => rfl
    · cases hq : s.arb.capQ with
      | nil => exact (hr hq).elim
      | cons a b => simp)
  obtain ⟨T, hT⟩ := Option.isSome_iff_exists.mp hb
  obtain ⟨h1, h2, _⟩ := hi.sched T hT
  rw [hT, h1]
  exact ⟨rfl, h1 ▸ h2⟩

/-- **C77** (weighted round robin). No sanity check of the port fails, and no queue is read when empty. -/
theorem C77_checks_wrr (e : PEv) (he : s.CanHappen t e) : ((wrrCfg choose bd flit fc).step s e).isSome := by
  obtain ⟨s', out, h1, _⟩ := step_ok (C := wrrCfg choose bd flit fc) (wrr_law hch bd) (wrr_inv hch h) e he
  rw [h1]; rfl

/-- **C77** (weighted round robin). The active, idle and stalled times with the flit overheads are the
time until the link is free. -/
theorem C77_time_wrr : s.active + s.idle + s.stalled + flit * log.length = s.nextFree := (wrr_inv hch h).time

end

/-- `top()` of the port queue: the highest priority, then the earliest `next_free`. -/
def better (a b : WLane) : Bool := if a.prio ≠ b.prio then decide (b.prio < a.prio) else decide (a.nextFree < b.nextFree)

/-- A choice of the highest priority lane. -/
def top (lanes : Nat → WLane) : List Nat → Nat
  | [] => 0
  | [a] => a
  | a :: b :: l => let r := top lanes (b :: l); if better (lanes r) (lanes a) then r else a

theorem top_mem (lanes : Nat → WLane) (l : List Nat) (h : l ≠ []) : top lanes l ∈ l := by
  induction l with
  | nil => exact (h rfl).elim
  | cons a l ih =>
    cases l with
    | nil => exact List.mem_singleton_self _
    | cons b l =>
      simp only [top]
      split
      · exact List.mem_cons_of_mem _ (ih (by simp))
      · exact List.mem_cons_self ..

theorem top_chooses : Chooses top := top_mem

/-- **C78** (partial). While another lane is up for arbitration, a lane that has exceeded its limit is not
served: the packet sent is of a lane up for arbitration or of a limited lane whose time has come.
What is missing: with no other lane up, the limit is ignored (`C78_refuted`). -/
theorem C78_partial {choose : (Nat → WLane) → List Nat → Nat} (hch : Chooses choose) {lbd : Nat} {s s' : Wrr} (h : s.Ok) {c : Nat} {p : Pkt}
    (hq : s.portQ ≠ []) (hp : s.pop choose lbd c = some (s', p)) :
    p.vl ∈ s.portQ ∨ (p.vl ∈ s.capQ ∧ (s.lanes p.vl).nextFree ≤ c) := by
  unfold Wrr.pop at hp
  simp only at hp
  have hne : (s.portQ ++ s.capQ.filter fun v => decide ((s.lanes v).nextFree ≤ c)) ≠ [] := by simp [hq]
  have he : (s.portQ ++ s.capQ.filter fun v => decide ((s.lanes v).nextFree ≤ c)).isEmpty = false := by
    cases hx : s.portQ ++ s.capQ.filter fun v => decide ((s.lanes v).nextFree ≤ c) with
    | nil => exact (hne hx).elim
    | cons a b => rfl
  have hm := hch s.lanes _ hne
  rw [he] at hp
  simp only [Bool.false_eq_true, false_and, if_false] at hp
  generalize hw : choose s.lanes (s.portQ ++ s.capQ.filter fun v => decide ((s.lanes v).nextFree ≤ c)) = w at *
  have hpw : p.vl = w := by
    split at hp
    · cases hp
    · rename_i q qs hpd
      have hq : q.vl = w := (h w).2 q (by rw [show (s.view w).pending = q :: qs from hpd]; exact List.mem_cons_self ..)
      split at hp <;> (cases hp; exact hq)
  rw [hpw]
  rcases List.mem_append.mp hm with hm | hm
  · exact .inl hm
  · have := List.mem_filter.mp hm
    exact .inr ⟨this.1, by simpa using this.2⟩

/-- **C78** (refuted). A lane configured with a bandwidth limit sends at full speed when no other lane
has packets: with a limit of one byte in 10 ticks on a link that takes 1, four packets of 100 bytes of
a single lane leave within 400 ticks. -/
theorem C78_refuted : ((wrrCfg top 1 0 true).runAll (port0 (wrr0 (fun _ => .max) (fun _ => 10) (fun _ => 0) fun _ => 1000)) 0
      [.pkt 0 ⟨1, 100, 0⟩, .pkt 0 ⟨2, 100, 0⟩, .pkt 0 ⟨3, 100, 0⟩, .pkt 0 ⟨4, 100, 0⟩, .arb 100, .arb 200, .arb 300]).map (fun r => r.2.2.map (·.start)) =
    some [0, 100, 200, 300] := by decide

example : ((wrrCfg top 1 0 true).runAll (port0 (wrr0 (fun _ => .min) (fun _ => 10) (fun _ => 0) fun _ => 250)) 0
      [.pkt 0 ⟨1, 100, 0⟩, .pkt 0 ⟨2, 100, 1⟩, .pkt 0 ⟨3, 100, 0⟩, .pkt 5 ⟨4, 100, 0⟩, .arb 100, .arb 200, .credit 250 0 100]).map
      (fun r => (r.2.2.map fun x => (x.start, x.pkt.id), r.1.sched)) =
    some ([(0, 1), (100, 2), (200, 3)], some 300) := by decide

end SST.Snappr
