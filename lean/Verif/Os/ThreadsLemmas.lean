import Verif.Os.ThreadsSpec
set_option autoImplicit false
/-
Invariant of the threads of a node: every thread that can run has exactly one event in the
queue, at the right time.
-/
namespace SST.Os.Threads

/-- The thread an event starts or wakes. -/
def Ev.target : Ev → Option Nat
  | .switchTo t => some t
  | .start t => some t
  | .unblock t => some t
  | .timeout t _ => some t
  | .delete _ => none

/-- The pending events that start or wake `t`. -/
def Sys.wakes (s : Sys) (t : Nat) : List Q := s.queue.filter fun q => q.ev.target == some t

/-- The pending deletions of `t`. -/
def Sys.dels (s : Sys) (t : Nat) : List Q := s.queue.filter fun q => q.ev == .delete t

/-- The events that should be pending for `t`. -/
def Sys.want (s : Sys) (t : Nat) : List Q :=
  match (s.th t).st with
  | .new => []
  | .pending => [⟨s.now, .start t⟩]
  | .running => []
  | .done => []
  | .blocked (.timer d) => [⟨d, .unblock t⟩]
  | .blocked .list => if t ∈ s.waiting then [] else [⟨s.now, .switchTo t⟩]
  | .blocked .timed => []
  | .blocked (.join u) => if (s.th u).st = .done then [⟨s.now, .switchTo t⟩] else []

/-- The deletions that should be pending for `t`. -/
def Sys.wantDel (s : Sys) (t : Nat) : List Q :=
  if (s.th t).st = .done ∧ (s.th t).joinable = false ∧ (s.th t).deleted = false then
    [⟨s.now, .delete t⟩] else []

/-- The invariant. -/
structure Inv (s : Sys) : Prop where
  sorted : s.queue.Pairwise fun a b => a.time ≤ b.time
  ge : ∀ q ∈ s.queue, s.now ≤ q.time
  act : ∀ t, s.active = some t ↔ (s.th t).st = .running
  wk : ∀ t, s.wakes t = s.want t
  dl : ∀ t, s.dels t = s.wantDel t
  nd : s.waiting.Nodup
  wl : ∀ t ∈ s.waiting, (s.th t).st = .blocked .list
  jn : ∀ u t, t ∈ (s.th u).joiners ↔ (s.th t).st = .blocked (.join u) ∧ (s.th u).st ≠ .done
  one : ∀ u, (s.th u).joiners = [] ∨ ∃ t, (s.th u).joiners = [t]
  uniq : ∀ u t t', (s.th t).st = .blocked (.join u) → (s.th t').st = .blocked (.join u) → t = t'
  jt : ∀ t u, (s.th t).st = .blocked (.join u) →
    (s.th u).claimed = true ∧ (s.th u).joinable = true ∧ (s.th u).deleted = false ∧ (s.th u).st ≠ .new
  dd : ∀ t, (s.th t).deleted = true → (s.th t).st = .done
  nc : ∀ t, (s.th t).cancelled = false
  dj : ∀ t, (s.th t).deleted = true → (s.th t).joinable = true → (s.th t).claimed = true
  cj : ∀ t, (s.th t).claimed = true → (s.th t).joinable = true
  nw : ∀ t, (s.th t).st = .new → (s.th t).claimed = false
  nt : ∀ t, (s.th t).st ≠ .blocked .timed
  ca : ∀ t, (s.th t).claimed = true → (s.th t).deleted = true ∨ ∃ v, (s.th v).st = .blocked (.join t)

theorem mem_ins (q x : Q) (l : List Q) : x ∈ ins q l ↔ x = q ∨ x ∈ l := by
  induction l with
  | nil => simp [ins]
  | cons y ys ih =>
    simp only [ins]
    split
    · simp only [List.mem_cons, ih]; grind
    · simp only [List.mem_cons]

theorem sorted_ins (q : Q) (l : List Q) (h : l.Pairwise fun a b => a.time ≤ b.time) :
    (ins q l).Pairwise fun a b => a.time ≤ b.time := by
  induction l with
  | nil => simp [ins]
  | cons y ys ih =>
    simp only [ins]
    have hy := List.pairwise_cons.1 h
    split
    · rename_i hle
      refine List.pairwise_cons.2 ⟨?_, ih hy.2⟩
      intro a ha
      rcases (mem_ins q a ys).1 ha with rfl | ha
      · exact hle
      · exact hy.1 a ha
    · rename_i hle
      refine List.pairwise_cons.2 ⟨?_, h⟩
      intro a ha
      rcases List.mem_cons.1 ha with rfl | ha
      · omega
      · have := hy.1 a ha; omega

theorem filter_ins_neg (p : Q → Bool) (q : Q) (l : List Q) (h : p q = false) :
    (ins q l).filter p = l.filter p := by
  induction l with
  | nil => simp [ins, h]
  | cons y ys ih => simp only [ins]; split <;> simp [List.filter_cons, ih, h]

theorem filter_ins_pos (p : Q → Bool) (q : Q) (l : List Q) (h : p q = true) (hl : l.filter p = []) :
    (ins q l).filter p = [q] := by
  induction l with
  | nil => simp [ins, h]
  | cons y ys ih =>
    have hy : p y = false := by
      cases hp : p y with
      | false => rfl
      | true => simp [List.filter_cons, hp] at hl
    have hys : ys.filter p = [] := by simpa [List.filter_cons, hy] using hl
    simp only [ins]; split
    · simp [List.filter_cons, hy, ih hys]
    · simp [List.filter_cons, hy, h, hys]

theorem Inv.start : Inv Sys.start := by
  constructor <;> (try intro t) <;> simp [Sys.start, Th.fresh, Sys.wakes, Sys.dels, Sys.want, Sys.wantDel] <;> grind

/-- Moving the clock to the next event. -/
theorem Inv.advance {s : Sys} (h : Inv s) {q : Q} {qs : List Q} (hq : s.queue = q :: qs) :
    Inv { s with now := q.time } := by
  have hs := h.sorted
  rw [hq] at hs
  have hs := List.pairwise_cons.1 hs
  have hle : s.now ≤ q.time := h.ge q (by rw [hq]; exact List.mem_cons_self)
  have hmin : ∀ x ∈ s.queue, q.time ≤ x.time := by
    intro x hx; rw [hq] at hx
    rcases List.mem_cons.1 hx with rfl | hx
    · exact Nat.le_refl _
    · exact hs.1 x hx
  have hnow : ∀ e, (⟨s.now, e⟩ : Q) ∈ s.queue → q.time = s.now := by
    intro e he
    have := hmin _ he
    simp only at this
    omega
  constructor
  case sorted => exact h.sorted
  case ge => exact hmin
  case wk =>
    intro t
    have := h.wk t
    have hm : ∀ x ∈ s.want t, x ∈ s.queue := by
      intro x hx; rw [← this] at hx; exact (List.mem_filter.1 hx).1
    show s.wakes t = _
    rw [this]
    unfold Sys.want at hm ⊢
    simp only
    split <;> grind
  case dl =>
    intro t
    have := h.dl t
    have hm : ∀ x ∈ s.wantDel t, x ∈ s.queue := by
      intro x hx; rw [← this] at hx; exact (List.mem_filter.1 hx).1
    show s.dels t = _
    rw [this]
    unfold Sys.wantDel at hm ⊢
    simp only
    split <;> grind
  case act => exact h.act
  case nd => exact h.nd
  case wl => exact h.wl
  case jn => exact h.jn
  case one => exact h.one
  case uniq => exact h.uniq
  case jt => exact h.jt
  case dd => exact h.dd
  case nc => exact h.nc
  case dj => exact h.dj
  case cj => exact h.cj
  case nw => exact h.nw
  case nt => exact h.nt
  case ca => exact h.ca

theorem wakes_ins_ne (q : Q) (l : List Q) (t : Nat) (h : q.ev.target ≠ some t) :
    (ins q l).filter (fun q => q.ev.target == some t) = l.filter fun q => q.ev.target == some t :=
  filter_ins_neg _ _ _ (by simpa using h)

theorem wakes_ins_eq (q : Q) (l : List Q) (t : Nat) (h : q.ev.target = some t)
    (hl : (l.filter fun q => q.ev.target == some t) = []) :
    (ins q l).filter (fun q => q.ev.target == some t) = [q] :=
  filter_ins_pos _ _ _ (by simpa using h) hl

theorem dels_ins_ne (q : Q) (l : List Q) (t : Nat) (h : q.ev ≠ .delete t) :
    (ins q l).filter (fun q => q.ev == .delete t) = l.filter fun q => q.ev == .delete t :=
  filter_ins_neg _ _ _ (by simpa using h)

theorem dels_ins_eq (q : Q) (l : List Q) (t : Nat) (h : q.ev = .delete t)
    (hl : (l.filter fun q => q.ev == .delete t) = []) :
    (ins q l).filter (fun q => q.ev == .delete t) = [q] :=
  filter_ins_pos _ _ _ (by simpa using h) hl

theorem ge_ins {q : Q} {l : List Q} {n : Nat} (hq : n ≤ q.time) (h : ∀ x ∈ l, n ≤ x.time) :
    ∀ x ∈ ins q l, n ≤ x.time := by
  intro x hx
  rcases (mem_ins q x l).1 hx with rfl | hx
  · exact hq
  · exact h x hx

theorem want_congr {s s' : Sys} {x : Nat} (hn : s'.now = s.now) (hs : (s'.th x).st = (s.th x).st)
    (hw : (s.th x).st = .blocked .list → (x ∈ s'.waiting ↔ x ∈ s.waiting))
    (hj : ∀ u, (s.th x).st = .blocked (.join u) → ((s'.th u).st = .done ↔ (s.th u).st = .done)) :
    s'.want x = s.want x := by
  unfold Sys.want
  rw [hs, hn]
  cases hst : (s.th x).st with
  | blocked w =>
    cases w with
    | list => simp only [hw hst]
    | join u => simp only [hj u hst]
    | _ => rfl
  | _ => rfl

theorem wantDel_congr {s s' : Sys} {x : Nat} (hn : s'.now = s.now)
    (hs : (s'.th x).st = .done ↔ (s.th x).st = .done)
    (hj : (s'.th x).joinable = (s.th x).joinable) (hd : (s'.th x).deleted = (s.th x).deleted) :
    s'.wantDel x = s.wantDel x := by
  simp only [Sys.wantDel, hn, hs, hj, hd]

theorem wakes_push_ne {s : Sys} {d : Nat} {e : Ev} {t : Nat} (h : e.target ≠ some t) :
    (s.push d e).wakes t = s.wakes t := wakes_ins_ne _ _ _ h

theorem wakes_push_eq {s : Sys} {d : Nat} {e : Ev} {t : Nat} (h : e.target = some t)
    (hl : s.wakes t = []) : (s.push d e).wakes t = [⟨s.now + d, e⟩] := wakes_ins_eq _ _ _ h hl

theorem dels_push_ne {s : Sys} {d : Nat} {e : Ev} {t : Nat} (h : e ≠ .delete t) :
    (s.push d e).dels t = s.dels t := dels_ins_ne _ _ _ h

theorem dels_push_eq {s : Sys} {d : Nat} {t : Nat}
    (hl : s.dels t = []) : (s.push d (.delete t)).dels t = [⟨s.now + d, .delete t⟩] :=
  dels_ins_eq _ _ _ rfl hl

theorem inv_compute {s : Sys} {t d : Nat} (h : Inv s) (ha : s.active = some t) :
    Inv ((s.push d (.unblock t)).block t (.timer (s.now + d))) := by
  have hr := (h.act t).1 ha
  have hw : s.wakes t = [] := by rw [h.wk t]; simp [Sys.want, hr]
  obtain ⟨sorted, ge, act, wk, dl, nd, wl, jn, one, uniq, jt, dd, nc, dj, cj, nw, nt, ca⟩ := h
  constructor
  case sorted => exact sorted_ins _ _ sorted
  case ge => exact ge_ins (Nat.le_add_right _ _) ge
  case wk =>
    intro x
    by_cases hx : x = t
    · subst hx; refine (wakes_push_eq (s := s) rfl hw).trans ?_; simp [Sys.want, Sys.block, Sys.push, Sys.upd]
    · refine (wakes_push_ne (s := s) (by simpa [Ev.target] using fun e => hx e.symm)).trans ((wk x).trans (want_congr ?_ ?_ ?_ ?_).symm) <;> simp only [Sys.block, Sys.push, Sys.upd] <;> grind
  case dl =>
    intro x
    refine (dels_push_ne (s := s) (by simp)).trans ((dl x).trans (wantDel_congr ?_ ?_ ?_ ?_).symm) <;> simp only [Sys.block, Sys.push, Sys.upd] <;> grind
  all_goals simp only [Sys.push, Sys.block, Sys.upd]; clear wk dl; grind

theorem inv_wait {s : Sys} {t : Nat} (h : Inv s) (ha : s.active = some t) :
    Inv ({ s with waiting := s.waiting ++ [t] }.block t .list) := by
  have hr := (h.act t).1 ha
  have hw : s.wakes t = [] := by rw [h.wk t]; simp [Sys.want, hr]
  have hnm : t ∉ s.waiting := fun hm => by have := h.wl t hm; rw [hr] at this; simp at this
  obtain ⟨sorted, ge, act, wk, dl, nd, wl, jn, one, uniq, jt, dd, nc, dj, cj, nw, nt, ca⟩ := h
  constructor
  case sorted => exact sorted
  case ge => exact ge
  case wk =>
    intro x
    show s.wakes x = _
    by_cases hx : x = t
    · subst hx; rw [hw]; simp [Sys.want, Sys.block, Sys.upd]
    · refine (wk x).trans (want_congr ?_ ?_ ?_ ?_).symm <;> simp only [Sys.block, Sys.upd] <;> grind
  case dl =>
    intro x
    refine (dl x).trans (wantDel_congr ?_ ?_ ?_ ?_).symm <;> simp only [Sys.block, Sys.upd] <;> grind
  case nd =>
    simp only [Sys.block, Sys.upd]
    exact List.nodup_append.2 ⟨nd, by simp, by grind⟩
  all_goals simp only [Sys.push, Sys.block, Sys.upd]; clear wk dl; grind

theorem inv_wake {s : Sys} {u : Nat} (h : Inv s) (hu : u ∈ s.waiting) :
    Inv ({ s with waiting := s.waiting.erase u }.push 0 (.switchTo u)) := by
  have hb := h.wl u hu
  have hw : s.wakes u = [] := by rw [h.wk u]; simp [Sys.want, hb, hu]
  have hm : ∀ x, x ∈ s.waiting.erase u ↔ x ≠ u ∧ x ∈ s.waiting := fun x => List.Nodup.mem_erase_iff h.nd
  obtain ⟨sorted, ge, act, wk, dl, nd, wl, jn, one, uniq, jt, dd, nc, dj, cj, nw, nt, ca⟩ := h
  constructor
  case sorted => exact sorted_ins _ _ sorted
  case ge => exact ge_ins (Nat.le_add_right _ _) ge
  case wk =>
    intro x
    by_cases hx : x = u
    · subst hx
      refine (wakes_push_eq (s := { s with waiting := s.waiting.erase x }) rfl hw).trans ?_
      simp [Sys.want, Sys.push, hb, hm]
    · refine (wakes_push_ne (s := { s with waiting := s.waiting.erase u }) (by simpa [Ev.target] using fun e => hx e.symm)).trans ((wk x).trans (want_congr ?_ ?_ ?_ ?_).symm) <;> simp only [Sys.push] <;> grind
  case dl =>
    intro x
    refine (dels_push_ne (s := { s with waiting := s.waiting.erase u }) (by simp)).trans ((dl x).trans (wantDel_congr ?_ ?_ ?_ ?_).symm) <;> simp only [Sys.push] <;> grind
  case nd => exact nd.erase u
  all_goals simp only [Sys.push]; clear wk dl; grind

theorem inv_spawn {s : Sys} {u : Nat} {j : Bool} (h : Inv s) (hu : (s.th u).st = .new) :
    Inv ((s.upd u fun h => { h with st := .pending, joinable := j }).push 0 (.start u)) := by
  have hw : s.wakes u = [] := by rw [h.wk u]; simp [Sys.want, hu]
  obtain ⟨sorted, ge, act, wk, dl, nd, wl, jn, one, uniq, jt, dd, nc, dj, cj, nw, nt, ca⟩ := h
  constructor
  case sorted => exact sorted_ins _ _ sorted
  case ge => exact ge_ins (Nat.le_add_right _ _) ge
  case wk =>
    intro x
    by_cases hx : x = u
    · subst hx
      refine (wakes_push_eq (s := s.upd x fun h => { h with st := .pending, joinable := j }) rfl hw).trans ?_
      simp [Sys.want, Sys.push, Sys.upd]
    · refine (wakes_push_ne (s := s.upd u fun h => { h with st := .pending, joinable := j }) (by simpa [Ev.target] using fun e => hx e.symm)).trans ((wk x).trans (want_congr ?_ ?_ ?_ ?_).symm) <;> simp only [Sys.push, Sys.upd] <;> grind
  case dl =>
    intro x
    refine (dels_push_ne (s := s.upd u fun h => { h with st := .pending, joinable := j }) (by simp)).trans ?_
    by_cases hx : x = u
    · subst hx
      refine (dl x).trans ?_
      simp [Sys.wantDel, Sys.push, Sys.upd, hu]
    · refine (dl x).trans (wantDel_congr ?_ ?_ ?_ ?_).symm <;> simp only [Sys.push, Sys.upd] <;> grind
  all_goals simp only [Sys.push, Sys.upd]; clear wk dl; grind

/-- Joining a finished thread. -/
theorem inv_joinDone {s : Sys} {u : Nat} (h : Inv s) (hd : (s.th u).st = .done)
    (hj : (s.th u).joinable = true) (hc : (s.th u).claimed = false) :
    Inv ((s.upd u fun h => { h with claimed := true }).upd u fun h => { h with deleted := true }) := by
  obtain ⟨sorted, ge, act, wk, dl, nd, wl, jn, one, uniq, jt, dd, nc, dj, cj, nw, nt, ca⟩ := h
  constructor
  case sorted => exact sorted
  case ge => exact ge
  case wk =>
    intro x
    refine (wk x).trans (want_congr ?_ ?_ ?_ ?_).symm <;> simp only [Sys.upd] <;> grind
  case dl =>
    intro x
    by_cases hx : x = u
    · subst hx
      refine (dl x).trans ?_
      simp [Sys.wantDel, Sys.upd, hj]
    · refine (dl x).trans (wantDel_congr ?_ ?_ ?_ ?_).symm <;> simp only [Sys.upd] <;> grind
  all_goals simp only [Sys.upd]; clear wk dl; grind

/-- Joining a thread that has not finished. -/
theorem inv_joinWait {s : Sys} {t u : Nat} (h : Inv s) (ha : s.active = some t) (hne : u ≠ t)
    (hd : (s.th u).st ≠ .done) (hn : (s.th u).st ≠ .new)
    (hj : (s.th u).joinable = true) (hc : (s.th u).claimed = false) :
    Inv (((s.upd u fun h => { h with claimed := true }).upd u fun h =>
      { h with joiners := h.joiners ++ [t] }).block t (.join u)) := by
  have hr := (h.act t).1 ha
  have hw : s.wakes t = [] := by rw [h.wk t]; simp [Sys.want, hr]
  have hnd : (s.th u).deleted = false := by
    cases hx : (s.th u).deleted with
    | false => rfl
    | true => exact absurd (h.dd u hx) hd
  have hno : ∀ v, (s.th v).st ≠ .blocked (.join u) := fun v hv => by
    have := (h.jt v u hv).1; rw [hc] at this; cases this
  have hem : (s.th u).joiners = [] := by
    rcases h.one u with he | ⟨v, he⟩
    · exact he
    · exact absurd ((h.jn u v).1 (by rw [he]; exact List.mem_singleton.2 rfl)).1 (hno v)
  obtain ⟨sorted, ge, act, wk, dl, nd, wl, jn, one, uniq, jt, dd, nc, dj, cj, nw, nt, ca⟩ := h
  constructor
  case sorted => exact sorted
  case ge => exact ge
  case wk =>
    intro x
    show s.wakes x = _
    by_cases hx : x = t
    · subst hx; rw [hw]; simp [Sys.want, Sys.block, Sys.upd, hne, hd]
    · refine (wk x).trans (want_congr ?_ ?_ ?_ ?_).symm <;> simp only [Sys.block, Sys.upd] <;> grind
  case dl =>
    intro x
    refine (dl x).trans (wantDel_congr ?_ ?_ ?_ ?_).symm <;> simp only [Sys.block, Sys.upd] <;> grind
  all_goals simp only [Sys.push, Sys.block, Sys.upd]; clear wk dl; grind

/-- A joinable thread that nobody waits for ends. -/
theorem inv_exitJoinable {s : Sys} {t : Nat} (h : Inv s) (ha : s.active = some t)
    (hj : (s.th t).joinable = true) (hjs : (s.th t).joiners = []) :
    Inv { s.upd t (fun h => { h with st := .done, joiners := [] }) with active := none } := by
  have hr := (h.act t).1 ha
  have hw : s.wakes t = [] := by rw [h.wk t]; simp [Sys.want, hr]
  have hno : ∀ v, (s.th v).st ≠ .blocked (.join t) := fun v hv => by
    have := (h.jn t v).2 ⟨hv, by rw [hr]; simp⟩; rw [hjs] at this; cases this
  obtain ⟨sorted, ge, act, wk, dl, nd, wl, jn, one, uniq, jt, dd, nc, dj, cj, nw, nt, ca⟩ := h
  constructor
  case sorted => exact sorted
  case ge => exact ge
  case wk =>
    intro x
    show s.wakes x = _
    by_cases hx : x = t
    · subst hx; rw [hw]; simp [Sys.want, Sys.upd]
    · refine (wk x).trans (want_congr ?_ ?_ ?_ ?_).symm <;> simp only [Sys.upd] <;> grind
  case dl =>
    intro x
    show s.dels x = _
    by_cases hx : x = t
    · subst hx; rw [dl x]; simp [Sys.wantDel, Sys.upd, hr, hj]
    · refine (dl x).trans (wantDel_congr ?_ ?_ ?_ ?_).symm <;> simp only [Sys.upd] <;> grind
  all_goals simp only [Sys.upd]; clear wk dl; grind

/-- A detached thread ends. -/
theorem inv_exitDetached {s : Sys} {t : Nat} (h : Inv s) (ha : s.active = some t)
    (hj : (s.th t).joinable = false) :
    (s.th t).joiners = [] ∧
    Inv { (s.push 0 (.delete t)).upd t (fun h => { h with st := .done, joiners := [] }) with active := none } := by
  have hr := (h.act t).1 ha
  have hw : s.wakes t = [] := by rw [h.wk t]; simp [Sys.want, hr]
  have hdl : s.dels t = [] := by rw [h.dl t]; simp [Sys.wantDel, hr]
  have hnd : (s.th t).deleted = false := by
    cases hx : (s.th t).deleted with
    | false => rfl
    | true => have := h.dd t hx; rw [hr] at this; simp at this
  have hno : ∀ v, (s.th v).st ≠ .blocked (.join t) := fun v hv => by
    have := (h.jt v t hv).2.1; rw [hj] at this; cases this
  have hjs : (s.th t).joiners = [] := by
    rcases h.one t with he | ⟨v, he⟩
    · exact he
    · exact absurd ((h.jn t v).1 (by rw [he]; exact List.mem_singleton.2 rfl)).1 (hno v)
  refine ⟨hjs, ?_⟩
  obtain ⟨sorted, ge, act, wk, dl, nd, wl, jn, one, uniq, jt, dd, nc, dj, cj, nw, nt, ca⟩ := h
  constructor
  case sorted => exact sorted_ins _ _ sorted
  case ge => exact ge_ins (Nat.le_add_right _ _) ge
  case wk =>
    intro x
    refine (wakes_push_ne (s := s) (by simp [Ev.target])).trans ?_
    by_cases hx : x = t
    · subst hx; rw [hw]; simp [Sys.want, Sys.upd]
    · refine (wk x).trans (want_congr ?_ ?_ ?_ ?_).symm <;> simp only [Sys.upd, Sys.push] <;> grind
  case dl =>
    intro x
    by_cases hx : x = t
    · subst hx
      refine (dels_push_eq (s := s) hdl).trans ?_
      simp [Sys.wantDel, Sys.upd, Sys.push, hj, hnd]
    · refine (dels_push_ne (s := s) (by simpa using fun e => hx e.symm)).trans ?_
      refine (dl x).trans (wantDel_congr ?_ ?_ ?_ ?_).symm <;> simp only [Sys.upd, Sys.push] <;> grind
  all_goals simp only [Sys.upd, Sys.push]; clear wk dl; grind

/-- A thread that another thread waits for ends. -/
theorem inv_exitJoined {s : Sys} {t v : Nat} (h : Inv s) (ha : s.active = some t)
    (hjs : (s.th t).joiners = [v]) :
    Inv { (s.upd t (fun h => { h with st := .done, joiners := [] })).push 0 (.switchTo v) with active := none } := by
  have hr := (h.act t).1 ha
  have hw : s.wakes t = [] := by rw [h.wk t]; simp [Sys.want, hr]
  have hv := (h.jn t v).1 (by rw [hjs]; exact List.mem_singleton.2 rfl)
  have hvt : v ≠ t := fun he => by rw [he, hr] at hv; simp at hv
  have hwv : s.wakes v = [] := by rw [h.wk v]; simp [Sys.want, hv.1, hv.2]
  have hjo := h.jt v t hv.1
  have huq : ∀ x, (s.th x).st = .blocked (.join t) → x = v := fun x hx => h.uniq t x v hx hv.1
  obtain ⟨sorted, ge, act, wk, dl, nd, wl, jn, one, uniq, jt, dd, nc, dj, cj, nw, nt, ca⟩ := h
  constructor
  case sorted => exact sorted_ins _ _ sorted
  case ge => exact ge_ins (Nat.le_add_right _ _) ge
  case wk =>
    intro x
    by_cases hx : x = v
    · subst hx
      refine (wakes_push_eq (s := s.upd t (fun h => { h with st := .done, joiners := [] })) rfl hwv).trans ?_
      simp [Sys.want, Sys.upd, Sys.push, hvt, hv.1]
    · refine (wakes_push_ne (s := s.upd t (fun h => { h with st := .done, joiners := [] })) (by simpa [Ev.target] using fun e => hx e.symm)).trans ?_
      show s.wakes x = _
      by_cases hxt : x = t
      · subst hxt; rw [hw]; simp [Sys.want, Sys.upd, Sys.push]
      · refine (wk x).trans (want_congr ?_ ?_ ?_ ?_).symm <;> simp only [Sys.upd, Sys.push] <;> grind
  case dl =>
    intro x
    refine (dels_push_ne (s := s.upd t (fun h => { h with st := .done, joiners := [] })) (by simp)).trans ?_
    show s.dels x = _
    by_cases hx : x = t
    · subst hx; rw [dl x]; simp [Sys.wantDel, Sys.upd, Sys.push, hr, hjo.2.1]
    · refine (dl x).trans (wantDel_congr ?_ ?_ ?_ ?_).symm <;> simp only [Sys.upd, Sys.push] <;> grind
  all_goals simp only [Sys.upd, Sys.push]; clear wk dl; grind

/-- The head of the queue, if it wakes `t`, is the only event that does. -/
theorem wakes_tail {s : Sys} {q : Q} {qs : List Q} (hq : s.queue = q :: qs) (x : Nat) :
    s.wakes x = if q.ev.target = some x then q :: qs.filter (fun q => q.ev.target == some x)
      else qs.filter (fun q => q.ev.target == some x) := by
  unfold Sys.wakes
  rw [hq, List.filter_cons]
  by_cases h : q.ev.target = some x <;> simp [h]

theorem dels_tail {s : Sys} {q : Q} {qs : List Q} (hq : s.queue = q :: qs) (x : Nat) :
    s.dels x = if q.ev = .delete x then q :: qs.filter (fun q => q.ev == .delete x)
      else qs.filter (fun q => q.ev == .delete x) := by
  unfold Sys.dels
  rw [hq, List.filter_cons]
  by_cases h : q.ev = .delete x <;> simp [h]

/-- Thread `t`, blocked on a waiting list or a timer, runs again. -/
theorem inv_resume {s : Sys} {q : Q} {qs : List Q} {t : Nat} (h : Inv s) (hq : s.queue = q :: qs)
    (hn : s.active = none) (ht : q.ev.target = some t)
    (hb : (s.th t).st = .blocked .list ∨ ∃ d, (s.th t).st = .blocked (.timer d)) :
    Inv { { s with queue := qs }.upd t (fun h => { h with st := .running, ctr := h.ctr + 1 }) with active := some t } := by
  have hnd : ∀ x, q.ev ≠ .delete x := fun x he => by rw [he] at ht; simp [Ev.target] at ht
  have hwt := h.wk t
  rw [wakes_tail hq t, if_pos ht] at hwt
  have hlen : (s.want t).length ≤ 1 := by
    unfold Sys.want; split <;> (try split) <;> simp
  have hwt' : qs.filter (fun q => q.ev.target == some t) = [] := by
    rw [← hwt] at hlen
    exact List.length_eq_zero_iff.1 (by simp only [List.length_cons] at hlen; omega)
  have hnw : t ∉ s.waiting := fun hm => by
    have hl := h.wl t hm
    simp [Sys.want, hl, hm] at hwt
  have hs := h.sorted
  rw [hq] at hs
  have hg := h.ge
  rw [hq] at hg
  obtain ⟨sorted, ge, act, wk, dl, nd, wl, jn, one, uniq, jt, dd, nc, dj, cj, nw, nt, ca⟩ := h
  constructor
  case sorted => exact (List.pairwise_cons.1 hs).2
  case ge => exact fun x hx => hg x (List.mem_cons_of_mem _ hx)
  case wk =>
    intro x
    show qs.filter (fun q => q.ev.target == some x) = _
    by_cases hx : x = t
    · subst hx; rw [hwt']; simp [Sys.want, Sys.upd]
    · have h1 := wk x
      rw [wakes_tail hq x, if_neg (by rw [ht]; simpa using fun e => hx e.symm)] at h1
      refine h1.trans (want_congr ?_ ?_ ?_ ?_).symm <;> simp only [Sys.upd] <;> grind
  case dl =>
    intro x
    show qs.filter (fun q => q.ev == .delete x) = _
    have h1 := dl x
    rw [dels_tail hq x, if_neg (hnd x)] at h1
    refine h1.trans (wantDel_congr ?_ ?_ ?_ ?_).symm <;> simp only [Sys.upd] <;> grind
  all_goals simp only [Sys.upd]; clear wk dl; grind

/-- Thread `t`, which joined `u`, runs again and deletes `u`. -/
theorem inv_resumeJoin {s : Sys} {q : Q} {qs : List Q} {t u : Nat} (h : Inv s) (hq : s.queue = q :: qs)
    (hn : s.active = none) (ht : q.ev.target = some t)
    (hb : (s.th t).st = .blocked (.join u)) :
    (s.th u).st = .done ∧ (s.th u).deleted = false ∧ u ≠ t ∧
    Inv ({ { s with queue := qs }.upd t (fun h => { h with st := .running, ctr := h.ctr + 1 }) with
      active := some t }.upd u fun h => { h with deleted := true }) := by
  have hnd : ∀ x, q.ev ≠ .delete x := fun x he => by rw [he] at ht; simp [Ev.target] at ht
  have hwt := h.wk t
  rw [wakes_tail hq t, if_pos ht] at hwt
  have hud : (s.th u).st = .done := by
    by_cases hd : (s.th u).st = .done
    · exact hd
    · simp [Sys.want, hb, hd] at hwt
  have hwt' : qs.filter (fun q => q.ev.target == some t) = [] := by
    simp [Sys.want, hb, hud] at hwt
    simpa using hwt.2
  have hjo := h.jt t u hb
  have hut : u ≠ t := fun he => by rw [he, hb] at hud; simp at hud
  have huq : ∀ x, (s.th x).st = .blocked (.join u) → x = t := fun x hx => h.uniq u x t hx hb
  refine ⟨hud, hjo.2.2.1, hut, ?_⟩
  have hs := h.sorted
  rw [hq] at hs
  have hg := h.ge
  rw [hq] at hg
  obtain ⟨sorted, ge, act, wk, dl, nd, wl, jn, one, uniq, jt, dd, nc, dj, cj, nw, nt, ca⟩ := h
  constructor
  case sorted => exact (List.pairwise_cons.1 hs).2
  case ge => exact fun x hx => hg x (List.mem_cons_of_mem _ hx)
  case wk =>
    intro x
    show qs.filter (fun q => q.ev.target == some x) = _
    by_cases hx : x = t
    · subst hx; rw [hwt']; simp [Sys.want, Sys.upd, hut.symm]
    · have h1 := wk x
      rw [wakes_tail hq x, if_neg (by rw [ht]; simpa using fun e => hx e.symm)] at h1
      refine h1.trans (want_congr ?_ ?_ ?_ ?_).symm <;> simp only [Sys.upd] <;> grind
  case dl =>
    intro x
    show qs.filter (fun q => q.ev == .delete x) = _
    have h1 := dl x
    rw [dels_tail hq x, if_neg (hnd x)] at h1
    by_cases hx : x = u
    · subst hx; rw [h1]; simp [Sys.wantDel, Sys.upd, hjo.2.1]
    · refine h1.trans (wantDel_congr ?_ ?_ ?_ ?_).symm <;> simp only [Sys.upd] <;> grind
  all_goals simp only [Sys.upd]; clear wk dl; grind

/-- A new thread starts. -/
theorem inv_begin {s : Sys} {q : Q} {qs : List Q} {t : Nat} (h : Inv s) (hq : s.queue = q :: qs)
    (hn : s.active = none) (ht : q.ev = .start t) :
    (s.th t).st = .pending ∧ (s.th t).deleted = false ∧
    Inv { { s with queue := qs }.upd t (fun h => { h with st := .running, cancelled := false }) with active := some t } := by
  have htt : q.ev.target = some t := by rw [ht]; rfl
  have hnd : ∀ x, q.ev ≠ .delete x := fun x he => by rw [ht] at he; simp at he
  have hwt := h.wk t
  rw [wakes_tail hq t, if_pos htt] at hwt
  have hp : (s.th t).st = .pending := by
    have hmem : q ∈ s.want t := by rw [← hwt]; exact List.mem_cons_self
    unfold Sys.want at hmem
    split at hmem <;> (try split at hmem) <;> simp at hmem <;> (try (rw [hmem] at ht; simp at ht)) <;> assumption
  have hdel : (s.th t).deleted = false := by
    cases hx : (s.th t).deleted with
    | false => rfl
    | true => have := h.dd t hx; rw [hp] at this; simp at this
  have hwt' : qs.filter (fun q => q.ev.target == some t) = [] := by
    simp [Sys.want, hp] at hwt
    simpa using hwt.2
  refine ⟨hp, hdel, ?_⟩
  have hs := h.sorted
  rw [hq] at hs
  have hg := h.ge
  rw [hq] at hg
  obtain ⟨sorted, ge, act, wk, dl, nd, wl, jn, one, uniq, jt, dd, nc, dj, cj, nw, nt, ca⟩ := h
  constructor
  case sorted => exact (List.pairwise_cons.1 hs).2
  case ge => exact fun x hx => hg x (List.mem_cons_of_mem _ hx)
  case wk =>
    intro x
    show qs.filter (fun q => q.ev.target == some x) = _
    by_cases hx : x = t
    · subst hx; rw [hwt']; simp [Sys.want, Sys.upd]
    · have h1 := wk x
      rw [wakes_tail hq x, if_neg (by rw [htt]; simpa using fun e => hx e.symm)] at h1
      refine h1.trans (want_congr ?_ ?_ ?_ ?_).symm <;> simp only [Sys.upd] <;> grind
  case dl =>
    intro x
    show qs.filter (fun q => q.ev == .delete x) = _
    have h1 := dl x
    rw [dels_tail hq x, if_neg (hnd x)] at h1
    refine h1.trans (wantDel_congr ?_ ?_ ?_ ?_).symm <;> simp only [Sys.upd] <;> grind
  all_goals simp only [Sys.upd]; clear wk dl; grind

/-- A detached thread that ended is deleted. -/
theorem inv_delete {s : Sys} {q : Q} {qs : List Q} {t : Nat} (h : Inv s) (hq : s.queue = q :: qs)
    (ht : q.ev = .delete t) :
    (s.th t).st = .done ∧ (s.th t).joinable = false ∧ (s.th t).deleted = false ∧ q.time = s.now ∧
    Inv ({ s with queue := qs }.upd t fun h => { h with deleted := true }) := by
  have htt : ∀ x, q.ev.target ≠ some x := fun x => by rw [ht]; simp [Ev.target]
  have hdt := h.dl t
  rw [dels_tail hq t, if_pos ht] at hdt
  have hc : (s.th t).st = .done ∧ (s.th t).joinable = false ∧ (s.th t).deleted = false := by
    unfold Sys.wantDel at hdt
    split at hdt
    · assumption
    · cases hdt
  have hqt : q.time = s.now ∧ qs.filter (fun q => q.ev == .delete t) = [] := by
    rw [Sys.wantDel, if_pos hc] at hdt
    injection hdt with h1 h2
    exact ⟨by rw [h1], h2⟩
  refine ⟨hc.1, hc.2.1, hc.2.2, hqt.1, ?_⟩
  have hs := h.sorted
  rw [hq] at hs
  have hg := h.ge
  rw [hq] at hg
  obtain ⟨sorted, ge, act, wk, dl, nd, wl, jn, one, uniq, jt, dd, nc, dj, cj, nw, nt, ca⟩ := h
  constructor
  case sorted => exact (List.pairwise_cons.1 hs).2
  case ge => exact fun x hx => hg x (List.mem_cons_of_mem _ hx)
  case wk =>
    intro x
    show qs.filter (fun q => q.ev.target == some x) = _
    have h1 := wk x
    rw [wakes_tail hq x, if_neg (htt x)] at h1
    refine h1.trans (want_congr ?_ ?_ ?_ ?_).symm <;> simp only [Sys.upd] <;> grind
  case dl =>
    intro x
    show qs.filter (fun q => q.ev == .delete x) = _
    by_cases hx : x = t
    · subst hx; rw [hqt.2]; simp [Sys.wantDel, Sys.upd]
    · have h1 := dl x
      rw [dels_tail hq x, if_neg (by rw [ht]; simpa using fun e => hx e.symm)] at h1
      refine h1.trans (wantDel_congr ?_ ?_ ?_ ?_).symm <;> simp only [Sys.upd] <;> grind
  all_goals simp only [Sys.upd]; clear wk dl; grind

/-- What a proper call does to the threads. -/
structure Called (s s' : Sys) (t : Nat) (c : Call) : Prop where
  inv : Inv s'
  now : s'.now = s.now
  others : ∀ x, x ≠ t → (s'.th x).st = (s.th x).st ∨ ((s.th x).st = .new ∧ (s'.th x).st = .pending)
  waiting : ∀ x, x ∈ s.waiting → x ∈ s'.waiting ∨ c = .wake x
  woken : ∀ x, x ∈ s'.waiting → x ∈ s.waiting ∨ c = .wait ∧ x = t
  kept : ∀ x, (s.th x).deleted = true → (s'.th x).deleted = true
  freed : ∀ x, (s.th x).deleted = false → (s'.th x).deleted = true → c = .join x ∧ (s.th x).st = .done

theorem call_spec {s : Sys} {t : Nat} {c : Call} (h : Inv s) (ha : s.active = some t) (hp : Proper s t c) :
    ∃ s', s.call t c = .ok s' ∧ Called s s' t c := by
  have hr := (h.act t).1 ha
  cases c with
  | compute d =>
    refine ⟨_, rfl, inv_compute h ha, rfl, ?_, ?_, ?_, ?_, ?_⟩ <;>
      simp only [Sys.push, Sys.block, Sys.upd] <;> grind
  | wait =>
    refine ⟨_, rfl, inv_wait h ha, rfl, ?_, ?_, ?_, ?_, ?_⟩ <;>
      simp only [Sys.block, Sys.upd] <;> grind
  | waitTimeout d => exact hp.elim
  | wake u =>
    have hu : u ∈ s.waiting := hp
    have hnd : (s.th u).deleted = false := by
      cases hx : (s.th u).deleted with
      | false => rfl
      | true => have h1 := h.dd u hx; have h2 := h.wl u hu; rw [h1] at h2; simp at h2
    refine ⟨_, ?_, inv_wake h hu, rfl, ?_, ?_, ?_, ?_, ?_⟩
    · simp [Sys.call, Sys.wakeup, hnd, h.nc u, ha]
    all_goals simp only [Sys.push]
    · intro x _; simp
    · intro x hx
      by_cases hxu : x = u
      · exact Or.inr (by rw [hxu])
      · exact Or.inl ((List.mem_erase_of_ne hxu).2 hx)
    · exact fun x hx => Or.inl (List.mem_of_mem_erase hx)
    · exact fun x hx => hx
    · intro x h1 h2; rw [h1] at h2; cases h2
  | spawn u j =>
    have hu : (s.th u).st = .new := hp
    refine ⟨_, rfl, inv_spawn h hu, rfl, ?_, ?_, ?_, ?_, ?_⟩ <;>
      simp only [Sys.push, Sys.upd] <;> grind
  | join u =>
    obtain ⟨hne, hnw, hj, hc⟩ := hp
    have hnd : (s.th u).deleted = false := by
      cases hx : (s.th u).deleted with
      | false => rfl
      | true => have := h.dj u hx hj; rw [hc] at this; cases this
    by_cases hd : (s.th u).st = .done
    · refine ⟨_, ?_, inv_joinDone h hd hj hc, rfl, ?_, ?_, ?_, ?_, ?_⟩
      · simp [Sys.call, Sys.del, Sys.upd, hnd, hd]
      all_goals simp only [Sys.upd]
      all_goals grind
    · refine ⟨_, ?_, inv_joinWait h ha hne hd hnw hj hc, rfl, ?_, ?_, ?_, ?_, ?_⟩
      · simp [Sys.call, Sys.upd, hnd, hd]
      all_goals simp only [Sys.upd, Sys.block]
      all_goals grind
  | exit =>
    cases hj : (s.th t).joinable with
    | false =>
      obtain ⟨hjs, hi⟩ := inv_exitDetached h ha hj
      refine ⟨_, ?_, hi, rfl, ?_, ?_, ?_, ?_, ?_⟩
      · simp [Sys.call, Sys.finish, hj, hjs, Sys.wakeJoiners, bind, Except.bind]
      all_goals simp only [Sys.upd, Sys.push]
      all_goals grind
    | true =>
      rcases h.one t with hjs | ⟨v, hjs⟩
      · refine ⟨_, ?_, inv_exitJoinable h ha hj hjs, rfl, ?_, ?_, ?_, ?_, ?_⟩
        · simp [Sys.call, Sys.finish, hj, hjs, Sys.wakeJoiners, bind, Except.bind]
        all_goals simp only [Sys.upd]
        all_goals grind
      · have hv := (h.jn t v).1 (by rw [hjs]; exact List.mem_singleton.2 rfl)
        have hvt : v ≠ t := fun he => by rw [he, hr] at hv; simp at hv
        have hnd : (s.th v).deleted = false := by
          cases hx : (s.th v).deleted with
          | false => rfl
          | true => have h1 := h.dd v hx; rw [hv.1] at h1; simp at h1
        refine ⟨_, ?_, inv_exitJoined h ha hjs, rfl, ?_, ?_, ?_, ?_, ?_⟩
        · simp [Sys.call, Sys.finish, hj, hjs, Sys.wakeJoiners, Sys.wakeup, Sys.upd, hvt, hnd, h.nc v, ha, bind, Except.bind, Sys.push]
        all_goals simp only [Sys.upd, Sys.push]
        all_goals grind
  | pthreadExit => exact hp.elim
  | appExit l => exact hp.elim

/-- What an event does to the threads. -/
structure Popped (s s' : Sys) : Prop where
  inv : Inv s'
  mono : s.now ≤ s'.now
  stay : ∀ t x, x ∈ s.want t → x.time = s.now → s'.now = s.now
  stayD : ∀ t, s.wantDel t ≠ [] → s'.now = s.now
  due : ∀ t d, (s.th t).st = .blocked (.timer d) → s'.now ≤ d
  waiting : s'.waiting = s.waiting
  each : ∀ x, (s'.th x).st = (s.th x).st ∨ (s'.th x).st = .running ∧
    ((s.th x).st = .pending ∧ s'.now = s.now ∨
     (s.th x).st = .blocked (.timer s'.now) ∨
     ((s.th x).st = .blocked .list ∧ x ∉ s.waiting ∧ s'.now = s.now) ∨
     ∃ u, (s.th x).st = .blocked (.join u) ∧ (s.th u).st = .done ∧ (s'.th u).st = .done ∧
       (s'.th u).deleted = true ∧ s'.now = s.now)
  kept : ∀ x, (s.th x).deleted = true → (s'.th x).deleted = true
  freed : ∀ x, (s.th x).deleted = false → (s'.th x).deleted = true → (s.th x).st = .done ∧ s'.now = s.now ∧
    ((s.th x).joinable = false ∨ ∃ t, (s.th t).st = .blocked (.join x) ∧ (s'.th t).st = .running)

theorem want_head {s : Sys} (h : Inv s) {q : Q} {qs : List Q} (hq : s.queue = q :: qs) {t : Nat}
    (ht : q.ev.target = some t) : q ∈ s.want t := by
  rw [← h.wk t, wakes_tail hq t, if_pos ht]; exact List.mem_cons_self

theorem pop_spec {s : Sys} (h : Inv s) (ha : s.active = none) {q : Q} {qs : List Q} (hq : s.queue = q :: qs) :
    ∃ s', s.pop = .ok s' ∧ Popped s s' := by
  have hs := h.sorted
  rw [hq] at hs
  have hs := List.pairwise_cons.1 hs
  have hle : s.now ≤ q.time := h.ge q (by rw [hq]; exact List.mem_cons_self)
  have hmin : ∀ x ∈ s.queue, q.time ≤ x.time := by
    intro x hx; rw [hq] at hx
    rcases List.mem_cons.1 hx with rfl | hx
    · exact Nat.le_refl _
    · exact hs.1 x hx
  have hstay : ∀ t x, x ∈ s.want t → x.time = s.now → q.time = s.now := by
    intro t x hx hxt
    rw [← h.wk t] at hx
    have := hmin x (List.mem_filter.1 hx).1
    omega
  have hstayD : ∀ t, s.wantDel t ≠ [] → q.time = s.now := by
    intro t hx
    have hm : (⟨s.now, .delete t⟩ : Q) ∈ s.wantDel t := by
      unfold Sys.wantDel at hx ⊢
      split at hx
      · rename_i hc; rw [if_pos hc]; exact List.mem_singleton.2 rfl
      · exact absurd rfl hx
    rw [← h.dl t] at hm
    have := hmin _ (List.mem_filter.1 hm).1
    simp only at this
    omega
  have hdue : ∀ t d, (s.th t).st = .blocked (.timer d) → q.time ≤ d := by
    intro t d hb
    have hm : (⟨d, .unblock t⟩ : Q) ∈ s.want t := by simp [Sys.want, hb]
    rw [← h.wk t] at hm
    exact hmin _ (List.mem_filter.1 hm).1
  have hi := h.advance hq
  have hwant : ∀ t, q.ev.target = some t → q ∈ Sys.want { s with now := q.time } t :=
    fun t ht => want_head hi hq ht
  have hdel : ∀ t, (s.th t).st ≠ .done → (s.th t).deleted = false := by
    intro t hn
    cases hx : (s.th t).deleted with
    | false => rfl
    | true => exact absurd (h.dd t hx) hn
  obtain ⟨qt, qe⟩ := q
  simp only at hle hmin hstay hstayD hdue hi hwant
  cases qe with
  | switchTo t =>
    have hw := hwant t rfl
    cases hst : (s.th t).st with
    | new => simp [Sys.want, hst] at hw
    | pending => simp [Sys.want, hst] at hw
    | running => simp [Sys.want, hst] at hw
    | done => simp [Sys.want, hst] at hw
    | blocked w =>
      cases w with
      | timer d => simp [Sys.want, hst] at hw
      | timed => simp [Sys.want, hst] at hw
      | list =>
        have hnw : t ∉ s.waiting := fun hm => by simp [Sys.want, hst, hm] at hw
        have hnow : qt = s.now := hstay t ⟨s.now, .switchTo t⟩ (by simp [Sys.want, hst, hnw]) rfl
        refine ⟨_, ?_, inv_resume hi hq ha rfl (Or.inl hst), hle, hstay, hstayD, hdue, rfl, ?_, ?_, ?_⟩
        · simp [Sys.pop, hq, Sys.resume, hst, hdel t (by simp [hst])]
        all_goals simp only [Sys.upd]
        all_goals grind
      | join u =>
        obtain ⟨hud, hunf, hut, hinv⟩ := inv_resumeJoin hi hq ha rfl (t := t) (u := u) hst
        simp only at hud hunf
        have hnow : qt = s.now := hstay t ⟨s.now, .switchTo t⟩ (by simp [Sys.want, hst, hud]) rfl
        refine ⟨_, ?_, hinv, hle, hstay, hstayD, hdue, rfl, ?_, ?_, ?_⟩
        · simp [Sys.pop, hq, Sys.resume, hst, hdel t (by simp [hst]), Sys.del, Sys.upd, hut, hunf]
        all_goals simp only [Sys.upd]
        · intro x
          by_cases hx : x = t
          · subst hx; right; refine ⟨by simp [hut.symm], Or.inr (Or.inr (Or.inr ⟨u, hst, hud, ?_, ?_, hnow⟩))⟩
            · simp [hut, hud]
            · simp
          · left; split <;> simp [hx]
        · grind
        · grind
  | start t =>
    obtain ⟨hp, hd, hinv⟩ := inv_begin hi hq ha rfl
    simp only at hp hd
    have hnow : qt = s.now := hstay t ⟨s.now, .start t⟩ (by simp [Sys.want, hp]) rfl
    refine ⟨_, ?_, hinv, hle, hstay, hstayD, hdue, rfl, ?_, ?_, ?_⟩
    · simp [Sys.pop, hq, hd]
    all_goals simp only [Sys.upd]
    all_goals grind
  | unblock t =>
    have hw := hwant t rfl
    have hst : (s.th t).st = .blocked (.timer qt) := by
      unfold Sys.want at hw
      simp only at hw
      split at hw <;> (try split at hw) <;> simp at hw <;> simp_all
    refine ⟨_, ?_, inv_resume hi hq ha rfl (Or.inr ⟨qt, hst⟩), hle, hstay, hstayD, hdue, rfl, ?_, ?_, ?_⟩
    · simp [Sys.pop, hq, Sys.wakeup, Sys.resume, hst, hdel t (by simp [hst]), h.nc t, ha]
    all_goals simp only [Sys.upd]
    all_goals grind
  | timeout t c =>
    have hw := hwant t rfl
    unfold Sys.want at hw
    split at hw <;> (try split at hw) <;> simp at hw
  | delete t =>
    obtain ⟨hd, hj, hnd, htime, hinv⟩ := inv_delete hi hq rfl
    simp only at hd hj hnd
    have hnow : qt = s.now := hstayD t (by simp [Sys.wantDel, hd, hj, hnd])
    refine ⟨_, ?_, hinv, hle, hstay, hstayD, hdue, rfl, ?_, ?_, ?_⟩
    · simp [Sys.pop, hq, Sys.del, hnd]
    all_goals simp only [Sys.upd]
    all_goals grind

theorem Reach.inv {s : Sys} (h : Reach s) : Inv s := by
  induction h with
  | start => exact Inv.start
  | @call s s' t c _ hp hs ih =>
    simp only [Sys.step] at hs
    split at hs
    · rename_i ha
      obtain ⟨s'', h1, h2⟩ := call_spec ih ha hp
      rw [hs] at h1; cases h1; exact h2.inv
    · cases hs
  | @pop s s' _ hs ih =>
    simp only [Sys.step] at hs
    split at hs
    · rename_i ha
      cases hq : s.queue with
      | nil => simp [Sys.pop, hq] at hs
      | cons q qs =>
        obtain ⟨s'', h1, h2⟩ := pop_spec ih ha hq
        rw [hs] at h1; cases h1; exact h2.inv
    · cases hs

/-- Each step of a proper program is a call or an event as described. -/
theorem next_cases {s s' : Sys} (h : Inv s) (hn : s.Next s') :
    (∃ t c, s.active = some t ∧ Proper s t c ∧ s.call t c = .ok s' ∧ Called s s' t c) ∨
    (s.active = none ∧ Popped s s') := by
  rcases hn with ⟨t, c, hp, hs⟩ | hs
  · simp only [Sys.step] at hs
    split at hs
    · rename_i ha
      obtain ⟨s'', h1, h2⟩ := call_spec h ha hp
      rw [hs] at h1; cases h1
      exact Or.inl ⟨t, c, ha, hp, hs, h2⟩
    · cases hs
  · simp only [Sys.step] at hs
    split at hs
    · rename_i ha
      cases hq : s.queue with
      | nil => simp [Sys.pop, hq] at hs
      | cons q qs =>
        obtain ⟨s'', h1, h2⟩ := pop_spec h ha hq
        rw [hs] at h1; cases h1; exact Or.inr ⟨ha, h2⟩
    · cases hs

theorem Reach.next {s s' : Sys} (h : Reach s) (hn : s.Next s') : Reach s' := by
  rcases hn with ⟨t, c, hp, hs⟩ | hs
  · exact .call h hp hs
  · exact .pop h hs

end SST.Os.Threads
