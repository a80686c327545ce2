import Verif.Dumpi.Spec
set_option autoImplicit false
/-! Lemmas on the replay of DUMPI traces: the tables of the replay follow the objects of the program. -/

namespace Verif.Dumpi

section lists
variable {α : Type}

theorem look_mem {n : Nat} {a : α} {l : List (Nat × α)} (h : look n l = some a) : (n, a) ∈ l := by
  induction l with
  | nil => simp [look] at h
  | cons x l ih =>
    obtain ⟨m, b⟩ := x
    simp only [look] at h
    split at h
    · rename_i hm; subst hm; cases h; simp
    · exact List.mem_cons_of_mem _ (ih h)

theorem look_del (n m : Nat) (l : List (Nat × α)) : look m (del n l) = if m = n then none else look m l := by
  induction l with
  | nil => simp [look, del]
  | cons x l ih =>
    obtain ⟨p, b⟩ := x
    simp only [del, List.filter_cons] at ih ⊢
    by_cases hp : p = n
    · subst hp
      simp only [ne_eq, not_true_eq_false, decide_false, Bool.false_eq_true, if_false, ih, look]
      by_cases hm : m = p
      · simp [hm]
      · simp [hm, Ne.symm hm]
    · simp only [ne_eq, hp, not_false_eq_true, decide_true, if_true, look]
      by_cases hm : p = m
      · subst hm; simp [hp]
      · simp only [hm, if_false]; exact ih

theorem look_put (n m : Nat) (a : α) (l : List (Nat × α)) :
    look m (put n a l) = if m = n then some a else look m l := by
  simp only [put, look, look_del]
  by_cases h : m = n
  · simp [h]
  · simp [h, Ne.symm h]

theorem look_cons (n m : Nat) (a : α) (l : List (Nat × α)) :
    look m ((n, a) :: l) = if m = n then some a else look m l := by
  simp only [look]
  by_cases h : m = n
  · simp [h]
  · simp [h, Ne.symm h]

end lists

/-- The arguments of an operation that MPI takes. -/
def goodPost (p : Post) : Prop :=
  p.peer ≠ mpiProcNull ∧ (if p.send then sendable p.peer else receivable p.peer) = true

/-- The object in the table of MPI for a request of the program. -/
def Fit (q : Req) (o : Obj) : Prop :=
  o.pers = q.pers ∧ (∀ n, q.op = some n → o.op = some n ∧ o.done = false) ∧
    (q.op = none → q.started = true → o.done = true)

/-- The tables of the replay have the objects of the program. -/
structure R (k : K) (ps : PS) (s : St) : Prop where
  next : s.next = ps.nop
  ncomm : s.ncomm = ps.ncomm
  ngroup : s.ngroup = ps.ngroup
  req : ∀ (r : Nat) (q : Req), look r ps.reqs = some q →
    q.id ≠ k.reqNull ∧ q.id ≠ mpiReqNull ∧ (∃ o, s.reqs q.id = some o ∧ Fit q o) ∧ ∀ p, q.pers = some p → goodPost p
  inj : ∀ (r r' : Nat) (q q' : Req), look r ps.reqs = some q → look r' ps.reqs = some q' → q.id = q'.id → r = r'
  base : ∀ id z, id < k.firstType → k.base id = some z → s.types id = some z
  type : ∀ (t : Nat) (x : Nat × Nat), look t ps.types = some x → k.firstType ≤ x.1 ∧ s.types x.1 = some x.2
  comm : ∀ (c : Nat) (id : Int), look c ps.comms = some id →
    s.comms (tcomm k id) = some c ∧ (c ≠ 0 → id ≠ k.commWorld)
  group : ∀ (g : Nat) (id : Int), look g ps.groups = some id →
    s.groups (tgroup k id) = some g ∧ (g ≠ 0 → id ≠ k.firstGroup)
  world : s.groups mpiGroupWorld = some 0

/-- A callback does what it should, and leaves the clock, the flag and the counter alone. -/
def Does (k : K) (s : St) (x : Except Stop St) (o : List Out × PS) : Prop :=
  ∃ s', x = .ok s' ∧ R k o.2 s' ∧ s'.out = s.out ++ o.1 ∧ s'.start = s.start ∧ s'.inited = s.inited ∧
    s'.ncoll = s.ncoll

theorem r_init (k : K) : R k (PS.init k) (St.init k) where
  next := rfl
  ncomm := rfl
  ngroup := rfl
  req := by intro r q h; simp [PS.init, look] at h
  inj := by intro r r' q q' h; simp [PS.init, look] at h
  base := by intro id z _ h; exact h
  type := by intro t x h; simp [PS.init, look] at h
  comm := by
    intro c id h
    simp only [PS.init, look] at h
    split at h
    · rename_i hc; subst hc; cases h; simp [tcomm, St.init, mpiCommWorld]
    · cases h
  group := by intro g id h; simp [PS.init, look] at h
  world := by simp [St.init]

theorem getType_ok {k : K} {ps : PS} {s : St} {t : Ty} (h : R k ps s) (ht : typeOk k ps t) :
    getType k (idOf ps t) s = .ok (sizeOf k ps t, s) := by
  cases t with
  | base id =>
    obtain ⟨h1, h2⟩ := ht
    obtain ⟨z, hz⟩ := Option.isSome_iff_exists.mp h2
    simp [getType, idOf, sizeOf, h.base id z h1 hz, hz]
  | user t =>
    obtain ⟨x, hx⟩ := Option.isSome_iff_exists.mp (show (look t ps.types).isSome = true from ht)
    simp [getType, idOf, sizeOf, hx, (h.type t x hx).2]

theorem getTypes_ok {k : K} {ps : PS} {s : St} (h : R k ps s) (l : List Ty) (hl : ∀ t ∈ l, typeOk k ps t) :
    getTypes k (l.map (idOf ps)) s = .ok (l.map (sizeOf k ps), s) := by
  induction l with
  | nil => rfl
  | cons t l ih =>
    simp only [List.map_cons, getTypes, getType_ok h (hl t (List.mem_cons_self ..)),
      ih (fun x hx => hl x (List.mem_cons_of_mem _ hx))]

theorem getComm_ok {k : K} {ps : PS} {s : St} {c : Nat} (h : R k ps s) (hc : commOk ps c) :
    getComm (tcomm k (commId ps c)) s = .ok c := by
  obtain ⟨id, hid⟩ := Option.isSome_iff_exists.mp (show (look c ps.comms).isSome = true from hc)
  simp [getComm, commId, hid, (h.comm c id hid).1]

theorem getGroup_ok {k : K} {ps : PS} {s : St} {g : Nat} (h : R k ps s) (hc : (look g ps.groups).isSome = true) :
    getGroup (tgroup k (groupId ps g)) s = .ok g := by
  obtain ⟨id, hid⟩ := Option.isSome_iff_exists.mp hc
  simp [getGroup, groupId, hid, (h.group g id hid).1]

section peers
variable {k : K} (hk : Sane k)
include hk

theorem tpeer_nat (d : Nat) : tpeer k d = d := by
  obtain ⟨h1, h2, _, _⟩ := hk
  simp only [tpeer]
  rw [if_neg (by omega), if_neg (by omega)]

theorem ttag_nat (g : Nat) : ttag k g = g := by
  obtain ⟨_, _, _, h4⟩ := hk
  simp only [ttag]
  rw [if_neg (by omega)]

theorem tpeer_src (d : Option Nat) : tpeer k (srcIn k d) = srcOf d := by
  cases d with
  | none => simp [srcIn, srcOf, tpeer]
  | some d => exact tpeer_nat hk d

theorem ttag_tag (g : Option Nat) : ttag k (tagIn k g) = tagOf g := by
  cases g with
  | none => simp [tagIn, tagOf, ttag]
  | some g => exact ttag_nat hk g

end peers

theorem good_send (b : Nat) (d : Nat) (g : Int) (c : Nat) : goodPost ⟨true, b, d, g, c⟩ := by
  constructor
  · simp only [mpiProcNull]; omega
  · simp [sendable]

theorem good_recv (b : Nat) (d : Option Nat) (g : Int) (c : Nat) : goodPost ⟨false, b, srcOf d, g, c⟩ := by
  cases d with
  | none => constructor <;> simp [srcOf, mpiAnySource, mpiProcNull, receivable]
  | some d =>
    constructor
    · simp only [srcOf, mpiProcNull]; omega
    · simp [srcOf, receivable]

/-- Giving MPI an operation. -/
theorem r_post {k : K} {ps : PS} {s : St} (h : R k ps s) (p : Post) :
    R k { ps with nop := ps.nop + 1 } (post p s) where
  next := by simp [post, h.next]
  ncomm := h.ncomm
  ngroup := h.ngroup
  req := h.req
  inj := h.inj
  base := h.base
  type := h.type
  comm := h.comm
  group := h.group
  world := h.world

/-- Only the log changes. -/
theorem r_out {k : K} {ps : PS} {s : St} (h : R k ps s) (o : List Out) : R k ps { s with out := o } :=
  ⟨h.next, h.ncomm, h.ngroup, h.req, h.inj, h.base, h.type, h.comm, h.group, h.world⟩

/-- A new request. -/
theorem r_add {k : K} {ps : PS} {s : St} (h : R k ps s) (q : Req) (o : Obj) (hf : Fit q o)
    (hq : freshReq k ps q.id) (hp : ∀ p, q.pers = some p → goodPost p) :
    R k { ps with reqs := (ps.nreq, q) :: ps.reqs, nreq := ps.nreq + 1 } (addReq q.id o s) where
  next := h.next
  ncomm := h.ncomm
  ngroup := h.ngroup
  req := by
    intro r q' hr
    rw [look_cons] at hr
    split at hr
    · cases hr
      exact ⟨hq.1, hq.2.1, ⟨o, by simp [addReq, set], hf⟩, hp⟩
    · obtain ⟨h1, h2, ⟨o', h3, h4⟩, h5⟩ := h.req r q' hr
      refine ⟨h1, h2, ⟨o', ?_, h4⟩, h5⟩
      have := hq.2.2 _ (look_mem hr)
      simp only [addReq, set]
      rw [if_neg this]; exact h3
  inj := by
    intro r r' q1 q2 h1 h2 h3
    rw [look_cons] at h1 h2
    split at h1 <;> split at h2
    · rename_i a b; rw [a, b]
    · cases h1; exact absurd h3.symm (hq.2.2 _ (look_mem h2))
    · cases h2; exact absurd h3 (hq.2.2 _ (look_mem h1))
    · exact h.inj r r' q1 q2 h1 h2 h3
  base := h.base
  type := h.type
  comm := h.comm
  group := h.group
  world := h.world

/-- A request changes: its object in the table is replaced. -/
theorem r_change {k : K} {ps : PS} {s : St} (h : R k ps s) {r : Nat} {q q' : Req} {o : Obj}
    (hr : look r ps.reqs = some q) (hid : q'.id = q.id) (hp : q'.pers = q.pers) (hf : Fit q' o) :
    R k { ps with reqs := put r q' ps.reqs } { s with reqs := set s.reqs q.id (some o) } where
  next := h.next
  ncomm := h.ncomm
  ngroup := h.ngroup
  req := by
    intro x y hx
    rw [look_put] at hx
    obtain ⟨h1, h2, _, h5⟩ := h.req r q hr
    split at hx
    · cases hx
      rw [hid, hp]
      exact ⟨h1, h2, ⟨o, by simp [set], hf⟩, h5⟩
    · rename_i hne
      obtain ⟨h1, h2, ⟨o', h3, h4⟩, h6⟩ := h.req x y hx
      refine ⟨h1, h2, ⟨o', ?_, h4⟩, h6⟩
      simp only [set]
      rw [if_neg (fun he => hne (h.inj x r y q hx hr he))]
      exact h3
  inj := by
    intro x x' y y' h1 h2 h3
    rw [look_put] at h1 h2
    split at h1 <;> split at h2
    · rename_i a b; rw [a, b]
    · cases h1; rename_i a b; rw [a]; exact h.inj r x' q y' hr h2 (hid ▸ h3)
    · cases h2; rename_i a b; rw [b]; exact h.inj x r y q h1 hr (hid ▸ h3)
    · exact h.inj x x' y y' h1 h2 h3
  base := h.base
  type := h.type
  comm := h.comm
  group := h.group
  world := h.world

/-- A request is gone from the program; its object in the table may be anything. -/
theorem r_del {k : K} {ps : PS} {s : St} (h : R k ps s) {r : Nat} {q : Req} (v : Option Obj)
    (hr : look r ps.reqs = some q) :
    R k { ps with reqs := del r ps.reqs } { s with reqs := set s.reqs q.id v } where
  next := h.next
  ncomm := h.ncomm
  ngroup := h.ngroup
  req := by
    intro x y hx
    rw [look_del] at hx
    split at hx
    · cases hx
    · rename_i hne
      obtain ⟨h1, h2, ⟨o', h3, h4⟩, h6⟩ := h.req x y hx
      refine ⟨h1, h2, ⟨o', ?_, h4⟩, h6⟩
      simp only [set]
      rw [if_neg (fun he => hne (h.inj x r y q hx hr he))]
      exact h3
  inj := by
    intro x x' y y' h1 h2 h3
    rw [look_del] at h1 h2
    split at h1
    · cases h1
    · split at h2
      · cases h2
      · exact h.inj x x' y y' h1 h2 h3
  base := h.base
  type := h.type
  comm := h.comm
  group := h.group
  world := h.world

/-- A request is freed: the table keeps its object. -/
theorem r_free {k : K} {ps : PS} {s : St} (h : R k ps s) (r : Nat) : R k { ps with reqs := del r ps.reqs } s where
  next := h.next
  ncomm := h.ncomm
  ngroup := h.ngroup
  req := by
    intro x y hx
    rw [look_del] at hx
    split at hx
    · cases hx
    · exact h.req x y hx
  inj := by
    intro x x' y y' h1 h2 h3
    rw [look_del] at h1 h2
    split at h1
    · cases h1
    · split at h2
      · cases h2
      · exact h.inj x x' y y' h1 h2 h3
  base := h.base
  type := h.type
  comm := h.comm
  group := h.group
  world := h.world

/-- A request starts. -/
theorem start_ok {k : K} {ps : PS} {s : St} (h : R k ps s) {r : Nat} (hr : canStart ps r) :
    Does k s (doStart (reqId k ps (some r)) s) (startReq r ps) := by
  unfold canStart at hr
  split at hr
  · rename_i q hq
    obtain ⟨hp, hop⟩ := hr
    obtain ⟨p, hp⟩ := Option.isSome_iff_exists.mp hp
    obtain ⟨h1, h2, ⟨o, h3, h4⟩, h5⟩ := h.req r q hq
    have hg := h5 p hp
    obtain ⟨qid, qop, qp, qs⟩ := q
    simp only at hp hop
    subst hp hop
    have hst : startReq r ps = ([.post ps.nop p],
      { ps with reqs := put r ⟨qid, some ps.nop, some p, true⟩ ps.reqs, nop := ps.nop + 1 }) := by
      simp [startReq, hq]
    have hd : doStart (reqId k ps (some r)) s
        = .ok (addReq qid { o with op := some s.next, done := false } (post p s)) := by
      simp only [reqId, hq, Option.map_some, Option.getD_some, doStart, h3]
      have : o.pers = some p := h4.1
      simp only [this]
      rw [if_neg hg.1, if_pos hg.2]
    rw [hst, hd]
    refine ⟨_, rfl, ?_, ?_, rfl, rfl, rfl⟩
    · have := r_change (k := k) (q' := ⟨qid, some ps.nop, some p, true⟩)
        (o := { o with op := some s.next, done := false }) (r_post h p) hq rfl rfl
        ⟨h4.1, by intro n hn; cases hn; exact ⟨by rw [h.next], rfl⟩, by simp⟩
      exact this
    · simp [addReq, post, h.next]
  · exact absurd hr id

theorem start_frame {ps : PS} {r x : Nat} (hne : x ≠ r) : look x (startReq r ps).2.reqs = look x ps.reqs := by
  unfold startReq
  split
  · simp only [look_put, hne, if_false]
  · rfl

/-- A request completes. -/
theorem finish_ok {k : K} {ps : PS} {s : St} (h : R k ps s) {r : Option Nat} (hr : canWait ps r) :
    Does k s (doWait (treq k (reqId k ps r)) s) (finishReq r ps) := by
  cases r with
  | none =>
    refine ⟨s, by simp [reqId, treq, doWait], h, by simp [finishReq], rfl, rfl, rfl⟩
  | some r =>
    simp only [canWait] at hr
    split at hr
    · rename_i q hq
      obtain ⟨h1, h2, ⟨o, h3, h4⟩, h5⟩ := h.req r q hq
      have hid : treq k (reqId k ps (some r)) = q.id := by
        simp [reqId, hq, treq, h1]
      rw [hid]
      simp only [finishReq, hq]
      simp only [doWait, if_neg h2, h3]
      cases hop : q.op with
      | some n =>
        obtain ⟨ho, hd⟩ := h4.2.1 n hop
        simp only [hd, ho]
        cases hp : q.pers with
        | some p =>
          have hop' : o.pers = some p := by rw [h4.1, hp]
          simp only [hop', Option.isSome_some, if_true]
          refine ⟨_, rfl, r_out (r_change (q' := { q with op := none, pers := some p }) h hq rfl hp.symm ?_) _, rfl, rfl, rfl, rfl⟩
          exact ⟨rfl, (by intro m hm; cases hm), by simp⟩
        | none =>
          have hop' : o.pers = none := by rw [h4.1, hp]
          simp only [hop', Option.isSome_none]
          exact ⟨_, rfl, r_out (r_del h none hq) _, rfl, rfl, rfl, rfl⟩
      | none =>
        have hd := h4.2.2 hop hr
        simp only [hd, if_true]
        cases hp : q.pers with
        | some p =>
          have hop' : o.pers = some p := by rw [h4.1, hp]
          simp only [hop', Option.isSome_some, if_true]
          refine ⟨_, rfl, r_change (q' := { q with op := none, pers := some p }) h hq rfl hp.symm ?_, by simp, rfl, rfl, rfl⟩
          exact ⟨hop', (by intro m hm; cases hm), fun _ _ => hd⟩
        | none =>
          have hop' : o.pers = none := by rw [h4.1, hp]
          simp only [hop', Option.isSome_none]
          exact ⟨_, rfl, r_del h none hq, by simp, rfl, rfl, rfl⟩
    · exact absurd hr id

theorem finish_frame {ps : PS} {r : Option Nat} {x : Nat} (hne : some x ≠ r) :
    look x (finishReq r ps).2.reqs = look x ps.reqs := by
  cases r with
  | none => rfl
  | some r =>
    have hx : x ≠ r := fun h => hne (h ▸ rfl)
    unfold finishReq
    simp only
    split
    · rename_i q hq
      cases q.pers with
      | some p => simp only [look_put, hx, if_false]
      | none => simp only [look_del, hx, if_false]
    · rfl

theorem does_trans {k : K} {s : St} {o : List Out} {ps : PS} {s1 : St} {y : Except Stop St} {o' : List Out × PS}
    (h1 : s1.out = s.out ++ o ∧ s1.start = s.start ∧ s1.inited = s.inited ∧ s1.ncoll = s.ncoll)
    (_ : R k ps s1) (h2 : Does k s1 y o') : Does k s y (o ++ o'.1, o'.2) := by
  obtain ⟨s2, e, r, a, b, c, d⟩ := h2
  exact ⟨s2, e, r, by rw [a, h1.1, List.append_assoc], by rw [b, h1.2.1], by rw [c, h1.2.2.1], by rw [d, h1.2.2.2]⟩

/-- Requests complete, one after the other; `f` gives the handles that the trace has for them. -/
theorem finishes_ok {k : K} (f : Option Nat → Int) (l : List (Option Nat)) :
    ∀ (ps : PS) (s : St), R k ps s → (∀ r ∈ l, canWait ps r) → (l.filter Option.isSome).Nodup →
      (∀ r ∈ l, reqId k ps r = f r) →
      Does k s (each (fun r => doWait (treq k (f r))) l s) (collect finishReq l ps) := by
  induction l with
  | nil => intro ps s h _ _ _; exact ⟨s, rfl, h, by simp [collect], rfl, rfl, rfl⟩
  | cons r l ih =>
    intro ps s h hw hn hf
    obtain ⟨s1, e1, r1, o1, b1, c1, d1⟩ := finish_ok h (hw r (List.mem_cons_self ..))
    simp only [each, ← hf r (List.mem_cons_self ..), e1, collect]
    refine does_trans ⟨o1, b1, c1, d1⟩ r1 (ih _ s1 r1 ?_ ?_ ?_)
    · intro x hx
      have hx' := hw x (List.mem_cons_of_mem _ hx)
      cases x with
      | none => trivial
      | some x =>
        have : some x ≠ r := by
          intro he
          rw [← he] at hn
          simp only [List.filter_cons, Option.isSome_some, if_true, List.nodup_cons] at hn
          exact hn.1 (List.mem_filter.mpr ⟨hx, rfl⟩)
        simp only [canWait, finish_frame this] at hx' ⊢
        exact hx'
    · rw [List.filter_cons] at hn
      split at hn
      · exact (List.nodup_cons.mp hn).2
      · exact hn
    · intro x hx
      rw [← hf x (List.mem_cons_of_mem _ hx)]
      cases x with
      | none => rfl
      | some x =>
        have : some x ≠ r := by
          intro he
          rw [← he] at hn
          simp only [List.filter_cons, Option.isSome_some, if_true, List.nodup_cons] at hn
          exact hn.1 (List.mem_filter.mpr ⟨hx, rfl⟩)
        simp only [reqId, finish_frame this]

/-- Requests start, one after the other. -/
theorem starts_ok {k : K} (f : Nat → Int) (l : List Nat) :
    ∀ (ps : PS) (s : St), R k ps s → (∀ r ∈ l, canStart ps r) → l.Nodup →
      (∀ r ∈ l, reqId k ps (some r) = f r) →
      Does k s (each (fun r => doStart (f r)) l s) (collect startReq l ps) := by
  induction l with
  | nil => intro ps s h _ _ _; exact ⟨s, rfl, h, by simp [collect], rfl, rfl, rfl⟩
  | cons r l ih =>
    intro ps s h hw hn hf
    obtain ⟨s1, e1, r1, o1, b1, c1, d1⟩ := start_ok h (hw r (List.mem_cons_self ..))
    simp only [each, ← hf r (List.mem_cons_self ..), e1, collect]
    have hn' := List.nodup_cons.mp hn
    have hne : ∀ x ∈ l, x ≠ r := fun x hx he => hn'.1 (he ▸ hx)
    refine does_trans ⟨o1, b1, c1, d1⟩ r1 (ih _ s1 r1 ?_ hn'.2 ?_)
    · intro x hx
      have hx' := hw x (List.mem_cons_of_mem _ hx)
      simp only [canStart, start_frame (hne x hx)] at hx' ⊢
      exact hx'
    · intro x hx
      rw [← hf x (List.mem_cons_of_mem _ hx)]
      simp only [reqId, start_frame (hne x hx)]

theorem each_map {α β : Type} (f : β → St → Except Stop St) (g : α → β) (l : List α) (s : St) :
    each f (l.map g) s = each (fun a => f (g a)) l s := by
  induction l generalizing s with
  | nil => rfl
  | cons a l ih =>
    simp only [List.map_cons, each]
    split
    · exact ih _
    · rfl

theorem each_congr {α : Type} {f g : α → St → Except Stop St} (l : List α) (h : ∀ a ∈ l, f a = g a) (s : St) :
    each f l s = each g l s := by
  induction l generalizing s with
  | nil => rfl
  | cons a l ih =>
    simp only [each, h a (List.mem_cons_self ..)]
    split
    · exact ih (fun x hx => h x (List.mem_cons_of_mem _ hx)) _
    · rfl

theorem collect_map {α β : Type} (f : β → PS → List Out × PS) (g : α → β) (l : List α) (ps : PS) :
    collect (fun a => f (g a)) l ps = collect f (l.map g) ps := by
  induction l generalizing ps with
  | nil => rfl
  | cons a l ih => simp only [List.map_cons, collect, ih]

theorem finished_range (rs : List (Option Nat)) : finished rs (List.range rs.length) = rs := by
  apply List.ext_getElem
  · simp [finished]
  · intro i h1 h2
    simp [finished, h2]

theorem waitAt_ok {k : K} (ps : PS) (rs : List (Option Nat)) (i : Nat) (hi : i < rs.length) :
    waitAt k (rs.map (reqId k ps)) i = doWait (treq k (reqId k ps (rs.getD i none))) := by
  funext s
  simp only [waitAt, List.length_map]
  rw [if_pos (by omega)]
  have : (rs.map (reqId k ps)).getD (Int.toNat (i : Int)) 0 = reqId k ps (rs.getD i none) := by
    simp [List.getD, hi]
  rw [this]

/-- A call completes requests. -/
theorem complete_ok {k : K} {ps : PS} {s : St} (h : R k ps s) {way : Way} {rs : List (Option Nat)} {fin : List Nat}
    (ha : allowed k ps (.complete way rs fin)) :
    Does k s (act k (recOf k ps (.complete way rs fin)) s) (does k ps (.complete way rs fin)) := by
  obtain ⟨hw, hc, hn⟩ := ha
  have key := finishes_ok (k := k) (reqId k ps) (finished rs fin) ps s h hc hn (fun _ _ => rfl)
  have hd : does k ps (.complete way rs fin) = collect finishReq (finished rs fin) ps := by
    simp only [does, finished]
    exact collect_map finishReq (fun i => rs.getD i none) fin ps
  rw [hd]
  have hall : finished rs fin = rs → each (fun r => doWait (treq k r)) (rs.map (reqId k ps)) s
      = each (fun r => doWait (treq k (reqId k ps r))) (finished rs fin) s := by
    intro he
    rw [he, each_map (fun r => doWait (treq k r)) (reqId k ps)]
  have hnil : finished rs [] = [] := rfl
  have hone : ∀ i : Nat, i < rs.length → waitAt k (rs.map (reqId k ps)) i s
      = each (fun r => doWait (treq k (reqId k ps r))) (finished rs [i]) s := by
    intro i hi
    rw [waitAt_ok ps rs i hi]
    simp only [finished, List.map_cons, List.map_nil, each]
    split <;> simp_all
  have hsome : (∀ i ∈ fin, i < rs.length) → each (fun (i : Nat) => waitAt k (rs.map (reqId k ps)) i) fin s
      = each (fun r => doWait (treq k (reqId k ps r))) (finished rs fin) s := by
    intro hi
    rw [finished, each_map (fun r => doWait (treq k (reqId k ps r))) (fun i => rs.getD i none)]
    exact each_congr fin (fun i hm => waitAt_ok ps rs i (hi i hm)) s
  have hneg : waitAt k (rs.map (reqId k ps)) (-1) s = .ok s := by
    simp [waitAt]
  cases way with
  | wait =>
    obtain ⟨h1, rfl⟩ := hw
    have h0 := hone 0 (by omega)
    rw [waitAt_ok ps rs 0 (by omega)] at h0
    simp only [recOf, act]
    have : rs.headD none = rs.getD 0 none := by cases rs <;> rfl
    rw [this, h0]; exact key
  | waitall =>
    have hw' : fin = List.range rs.length := hw
    subst hw'
    simp only [recOf, act]
    rw [hall (finished_range rs)]; exact key
  | waitany =>
    obtain ⟨h1, h2⟩ := hw
    simp only [recOf, act]
    match fin, h1, h2, key with
    | [], _, _, key =>
      simp only [index, hneg]
      exact key
    | [i], _, h2, key =>
      simp only [index]
      rw [hone i (h2 i (List.mem_cons_self ..))]; exact key
  | waitsome =>
    simp only [recOf, act]
    rw [hsome hw]; exact key
  | test =>
    obtain ⟨h1, h2⟩ := hw
    simp only [recOf, act]
    rcases h2 with rfl | rfl
    · simp only [ne_eq, not_true_eq_false, decide_false, Bool.false_eq_true, if_false]
      exact key
    · have h0 := hone 0 (by omega)
      rw [waitAt_ok ps rs 0 (by omega)] at h0
      have : rs.headD none = rs.getD 0 none := by cases rs <;> rfl
      simp only [ne_eq, List.cons_ne_self, not_false_eq_true, decide_true, if_true]
      rw [this, h0]; exact key
  | testall =>
    simp only [recOf, act]
    by_cases hf : fin = []
    · subst hf
      by_cases hr : rs = []
      · subst hr
        exact key
      · simp only [ne_eq, not_true_eq_false, decide_false, hr, Bool.or_self, Bool.false_eq_true, if_false]
        exact key
    · rcases hw with rfl | rfl
      · exact absurd rfl hf
      · rw [if_pos (by simp [hf]), hall (finished_range rs)]; exact key
  | testany =>
    obtain ⟨h1, h2⟩ := hw
    simp only [recOf, act]
    match fin, h1, h2, key with
    | [], _, _, key =>
      simp only [ne_eq, not_true_eq_false, decide_false, Bool.false_eq_true, if_false]
      exact key
    | [i], _, h2, key =>
      rw [if_pos (by simp)]
      simp only [index]
      rw [hone i (h2 i (List.mem_cons_self ..))]; exact key
  | testsome =>
    simp only [recOf, act]
    rw [hsome hw]; exact key

theorem olds_conIn (ps : PS) (c : Con Ty) : olds (conIn ps c) = (olds c).map (idOf ps) := by
  cases c <;> simp [olds, conIn]

theorem conSize_conIn (ps : PS) (c : Con Ty) (l : List Nat) : conSize (conIn ps c) l = conSize c l := by
  cases c <;> simp [conSize, conIn]
  rename_i fs
  congr 1

theorem dot_map (k : K) (ps : PS) (fs : List (Nat × Ty)) :
    dot (fs.map (·.1)) (fs.map (fun f => sizeOf k ps f.2)) = (fs.map (fun f => f.1 * sizeOf k ps f.2)).sum := by
  induction fs with
  | nil => rfl
  | cons f fs ih => simp only [List.map_cons, dot, List.sum_cons, ih]

theorem sum_mul (l : List Nat) (z : Nat) : l.sum * z = (l.map (fun n => n * z)).sum := by
  induction l with
  | nil => simp
  | cons a l ih => simp only [List.sum_cons, List.map_cons, Nat.add_mul, ih]

theorem conSize_bytes (k : K) (ps : PS) (c : Con Ty) : conSize c ((olds c).map (sizeOf k ps)) = typeBytes k ps c := by
  cases c with
  | contiguous n t => rfl
  | vector n b st t => simp only [conSize, olds, typeBytes, List.map_cons, List.headD_cons, Nat.mul_assoc]
  | indexed ls t => simp only [conSize, olds, typeBytes, List.map_cons, List.headD_cons, sum_mul]
  | struct fs =>
    simp only [conSize, olds, typeBytes, List.map_map]
    exact dot_map k ps fs
  | dup t => rfl

theorem rooted_eq (kind : Kind) : rooted kind = hasRoot kind := by cases kind <;> rfl

theorem zip_sizes (k : K) (ps : PS) (args : List (List Nat × Ty)) :
    List.zipWith (fun (a : List Nat × Nat) z => a.1.map (· * z)) (args.map (fun a => (a.1, idOf ps a.2)))
      (args.map (fun a => sizeOf k ps a.2)) = args.map (fun a => a.1.map (· * sizeOf k ps a.2)) := by
  induction args with
  | nil => rfl
  | cons a l ih => simp only [List.map_cons, List.zipWith_cons_cons, ih]

/-- A new communicator. -/
theorem r_comm {k : K} {ps : PS} {s : St} (h : R k ps s) {id : Int} (hf : freshComm k ps id) (o : List Out) :
    R k { ps with comms := (ps.ncomm, id) :: ps.comms, ncomm := ps.ncomm + 1 }
      { s with comms := set s.comms id (some s.ncomm), ncomm := s.ncomm + 1, out := o } where
  next := h.next
  ncomm := by simp [h.ncomm]
  ngroup := h.ngroup
  req := h.req
  inj := h.inj
  base := h.base
  type := h.type
  comm := by
    intro c id' hc
    rw [look_cons] at hc
    split at hc
    · rename_i he
      cases hc
      simp only [set, tcomm, if_neg hf.1, if_true]
      exact ⟨by rw [he, h.ncomm], fun _ => hf.1⟩
    · obtain ⟨h1, h2⟩ := h.comm c id' hc
      refine ⟨?_, h2⟩
      simp only [set]
      rw [if_neg, h1]
      simp only [tcomm]
      split
      · exact Ne.symm hf.2.1
      · exact hf.2.2 _ (look_mem hc)
  group := h.group
  world := h.world

/-- Everything but completions: what a call of the program does in the replay. -/
theorem act_ok {k : K} (hk : Sane k) {ps : PS} {s : St} (h : R k ps s) (b : Body) (ha : allowed k ps b) :
    Does k s (act k (recOf k ps b) s) (does k ps b) := by
  cases b with
  | send n t d g c =>
    have h1 := getType_ok h ha.1
    have h2 := getComm_ok h ha.2
    have hg := good_send (n * sizeOf k ps t) d g c
    have hs : sendable (d : Int) = true := hg.2
    simp only [recOf, act, h1, h2, bind, Except.bind, tpeer_nat hk, ttag_nat hk, mpiSend]
    rw [if_neg hg.1, if_pos hs]
    refine ⟨_, rfl, r_out (r_post h _) _, ?_, rfl, rfl, rfl⟩
    simp [awaitOp, post, does, sendPost, h.next]
  | recv n t d g c =>
    have h1 := getType_ok h ha.1
    have h2 := getComm_ok h ha.2
    have hg := good_recv (n * sizeOf k ps t) d (tagOf g) c
    have hs : receivable (srcOf d) = true := hg.2
    simp only [recOf, act, h1, h2, bind, Except.bind, tpeer_src hk, ttag_tag hk, mpiRecv]
    rw [if_neg hg.1, if_pos hs]
    refine ⟨_, rfl, r_out (r_post h _) _, ?_, rfl, rfl, rfl⟩
    simp [awaitOp, post, does, recvPost, h.next]
  | isend n t d g c id =>
    have h1 := getType_ok h ha.1
    have h2 := getComm_ok h ha.2.1
    have hg := good_send (n * sizeOf k ps t) d g c
    have hs : sendable (d : Int) = true := hg.2
    simp only [recOf, act, h1, h2, bind, Except.bind, tpeer_nat hk, ttag_nat hk, mpiIsend]
    rw [if_neg hg.1, if_pos hs]
    refine ⟨_, rfl, r_add (r_post h _) ⟨id, some ps.nop, none, true⟩ _ ?_ ha.2.2 (by intro p hp; cases hp), ?_, rfl, rfl, rfl⟩
    · exact ⟨rfl, by intro m hm; cases hm; simp [h.next], by intro hn; cases hn⟩
    · simp [addReq, post, does, sendPost, h.next]
  | irecv n t d g c id =>
    have h1 := getType_ok h ha.1
    have h2 := getComm_ok h ha.2.1
    have hg := good_recv (n * sizeOf k ps t) d (tagOf g) c
    have hs : receivable (srcOf d) = true := hg.2
    simp only [recOf, act, h1, h2, bind, Except.bind, tpeer_src hk, ttag_tag hk, mpiIrecv]
    rw [if_neg hg.1, if_pos hs]
    refine ⟨_, rfl, r_add (r_post h _) ⟨id, some ps.nop, none, true⟩ _ ?_ ha.2.2 (by intro p hp; cases hp), ?_, rfl, rfl, rfl⟩
    · exact ⟨rfl, by intro m hm; cases hm; simp [h.next], by intro hn; cases hn⟩
    · simp [addReq, post, does, recvPost, h.next]
  | sendInit n t d g c id =>
    have h1 := getType_ok h ha.1
    have h2 := getComm_ok h ha.2.1
    simp only [recOf, act, h1, h2, bind, Except.bind, tpeer_nat hk, ttag_nat hk]
    refine ⟨_, rfl, r_add h ⟨id, none, some (sendPost k ps n t d g c), false⟩ _ ?_ ha.2.2 ?_, ?_, rfl, rfl, rfl⟩
    · exact ⟨rfl, (by intro m hm; cases hm), by intro _ hn; cases hn⟩
    · intro p hp; cases hp; exact good_send _ d g c
    · simp [addReq, does]
  | recvInit n t d g c id =>
    have h1 := getType_ok h ha.1
    have h2 := getComm_ok h ha.2.1
    simp only [recOf, act, h1, h2, bind, Except.bind, tpeer_src hk, ttag_tag hk]
    refine ⟨_, rfl, r_add h ⟨id, none, some (recvPost k ps n t d g c), false⟩ _ ?_ ha.2.2 ?_, ?_, rfl, rfl, rfl⟩
    · exact ⟨rfl, (by intro m hm; cases hm), by intro _ hn; cases hn⟩
    · intro p hp; cases hp; exact good_recv _ d (tagOf g) c
    · simp [addReq, does]
  | start r =>
    have := start_ok h (r := r) ha
    have hid : treq k (reqId k ps (some r)) = reqId k ps (some r) := by
      have ha' : canStart ps r := ha
      unfold canStart at ha'
      split at ha'
      · rename_i q hq
        simp [reqId, hq, treq, (h.req r q hq).1]
      · exact absurd ha' id
    simp only [recOf, act, does, hid]
    exact this
  | startall rs =>
    simp only [recOf, act, does]
    rw [each_map doStart (fun r => reqId k ps (some r))]
    exact starts_ok _ rs ps s h ha.2 ha.1 (fun _ _ => rfl)
  | complete way rs fin => exact complete_ok h ha
  | requestFree r => exact ⟨s, rfl, r_free h r, by simp [does], rfl, rfl, rfl⟩
  | probe p g c =>
    have h2 := getComm_ok h (show commOk ps c from ha)
    simp only [recOf, act, h2, bind, Except.bind, tpeer_src hk, ttag_tag hk]
    exact ⟨_, rfl, r_out h _, by simp [does], rfl, rfl, rfl⟩
  | sendrecv n t d g n' t' d' g' c =>
    have h1 := getType_ok h ha.1
    have h1' := getType_ok h ha.2.1
    have h2 := getComm_ok h ha.2.2
    have hg := good_send (n * sizeOf k ps t) d g c
    have hs : sendable (d : Int) = true := hg.2
    have hg' := good_recv (n' * sizeOf k ps t') d' (tagOf g') c
    have hs' : receivable (srcOf d') = true := hg'.2
    simp only [recOf, act, h1, h1', h2, bind, Except.bind, tpeer_nat hk, ttag_nat hk, tpeer_src hk, ttag_tag hk, mpiSendrecv]
    rw [if_neg hg'.1, if_neg hg.1, if_pos (Bool.and_eq_true_iff.mpr ⟨hs, hs'⟩)]
    refine ⟨_, rfl, r_out (r_out (r_post (r_post h _) _) _) _, ?_, rfl, rfl, rfl⟩
    simp [awaitOp, post, does, sendPost, recvPost, h.next]
  | sendrecvReplace n t d g d' g' c =>
    have h1 := getType_ok h ha.1
    have h2 := getComm_ok h ha.2
    have hg := good_send (n * sizeOf k ps t) d g c
    have hs : sendable (d : Int) = true := hg.2
    have hg' := good_recv (n * sizeOf k ps t) d' (tagOf g') c
    have hs' : receivable (srcOf d') = true := hg'.2
    simp only [recOf, act, h1, h2, bind, Except.bind, tpeer_nat hk, ttag_nat hk, tpeer_src hk, ttag_tag hk, mpiSendrecv]
    rw [if_neg hg'.1, if_neg hg.1, if_pos (Bool.and_eq_true_iff.mpr ⟨hs, hs'⟩)]
    refine ⟨_, rfl, r_out (r_out (r_post (r_post h _) _) _) _, ?_, rfl, rfl, rfl⟩
    simp [awaitOp, post, does, sendPost, recvPost, h.next]
  | typeNew con id =>
    obtain ⟨h1, h2, h3⟩ := ha
    have ht := getTypes_ok h (olds con) h1
    simp only [recOf, act, olds_conIn, ht, bind, Except.bind, conSize_conIn, conSize_bytes, addType]
    rw [if_neg (by omega)]
    refine ⟨_, rfl, ?_, by simp [does], rfl, rfl, rfl⟩
    refine ⟨h.next, h.ncomm, h.ngroup, h.req, h.inj, ?_, ?_, h.comm, h.group, h.world⟩
    · intro i z hi hz
      show (if i = id then _ else s.types i) = _
      rw [if_neg (by omega)]
      exact h.base i z hi hz
    · intro t x hx
      simp only [does] at hx
      rw [look_cons] at hx
      split at hx
      · cases hx
        exact ⟨h2, by simp⟩
      · obtain ⟨a, b⟩ := h.type t x hx
        refine ⟨a, ?_⟩
        show (if x.1 = id then _ else s.types x.1) = _
        rw [if_neg (h3 _ (look_mem hx))]
        exact b
  | typeCommit t =>
    have h1 := getType_ok h (show typeOk k ps t from ha)
    simp only [recOf, act, h1, bind, Except.bind]
    exact ⟨s, rfl, h, by simp [does], rfl, rfl, rfl⟩
  | typeFree t =>
    have h1 := getType_ok (t := .user t) h ha
    simp only [recOf, act, h1, bind, Except.bind]
    refine ⟨s, rfl, ?_, by simp [does], rfl, rfl, rfl⟩
    refine ⟨h.next, h.ncomm, h.ngroup, h.req, h.inj, h.base, ?_, h.comm, h.group, h.world⟩
    intro u x hx
    simp only [does] at hx
    rw [look_del] at hx
    split at hx
    · cases hx
    · exact h.type u x hx
  | barrier c =>
    have h2 := getComm_ok h (show commOk ps c from ha)
    simp only [recOf, act, h2, bind, Except.bind]
    exact ⟨_, rfl, r_out h _, by simp [does], rfl, rfl, rfl⟩
  | coll kind args root c atRoot =>
    obtain ⟨h1, h3, h4⟩ := ha
    have h2 := getComm_ok h h3
    have hargs : (if kind = .gatherv ∧ (!atRoot) = true then
        (if kind = .gatherv ∧ (!atRoot) = true then args.map (fun a => (a.1, idOf ps a.2)) ++ [([], 0)]
          else args.map (fun a => (a.1, idOf ps a.2))).take 1
        else (if kind = .gatherv ∧ (!atRoot) = true then args.map (fun a => (a.1, idOf ps a.2)) ++ [([], 0)]
          else args.map (fun a => (a.1, idOf ps a.2)))) = args.map (fun a => (a.1, idOf ps a.2)) := by
      by_cases hv : kind = .gatherv ∧ (!atRoot) = true
      · rw [if_pos hv, if_pos hv]
        have hl : args.length = 1 := h4 ⟨hv.1, by simpa using hv.2⟩
        match args, hl with
        | [a], _ => rfl
      · rw [if_neg hv, if_neg hv]
    have ht := getTypes_ok h (args.map (·.2)) (by
      intro t ht
      obtain ⟨a, ha, rfl⟩ := List.mem_map.mp ht
      exact h1 a ha)
    simp only [List.map_map] at ht
    simp only [recOf, act]
    rw [hargs]
    have hm : (args.map (fun a => (a.1, idOf ps a.2))).map (·.2) = args.map (idOf ps ∘ fun x => x.2) := by
      rw [List.map_map]; rfl
    rw [hm, ht]
    simp only [h2, bind, Except.bind]
    refine ⟨_, rfl, r_out h _, ?_, rfl, rfl, rfl⟩
    simp only [does]
    congr 2
    have hz := zip_sizes k ps args
    have he : args.map (sizeOf k ps ∘ fun x => x.2) = args.map (fun a => sizeOf k ps a.2) := rfl
    rw [he, hz, tpeer_nat hk, rooted_eq]
  | worldGroup id =>
    have hid : id = k.firstGroup := ha
    subst hid
    refine ⟨s, rfl, ?_, by simp [does], rfl, rfl, rfl⟩
    refine ⟨h.next, h.ncomm, h.ngroup, h.req, h.inj, h.base, h.type, h.comm, ?_, h.world⟩
    intro g id hg
    simp only [does] at hg
    rw [look_put] at hg
    split at hg
    · rename_i h0
      cases hg
      simp only [tgroup, if_true]
      exact ⟨by rw [h0]; exact h.world, fun hn => absurd h0 hn⟩
    · exact h.group g id hg
  | groupIncl g ranks id =>
    obtain ⟨h1, h2, h3, h4⟩ := ha
    have hg := getGroup_ok h h1
    simp only [recOf, act, hg, bind, Except.bind]
    refine ⟨_, rfl, ?_, by simp [does, h.ngroup], rfl, rfl, rfl⟩
    refine ⟨h.next, h.ncomm, by simp [does, h.ngroup], h.req, h.inj, h.base, h.type, h.comm, ?_, ?_⟩
    · intro g' id' hg'
      simp only [does] at hg'
      rw [look_cons] at hg'
      split at hg'
      · rename_i he
        cases hg'
        simp only [set, tgroup, if_neg h2, if_true]
        exact ⟨by rw [he, h.ngroup], fun _ => h2⟩
      · obtain ⟨a, b⟩ := h.group g' id' hg'
        refine ⟨?_, b⟩
        simp only [set]
        rw [if_neg, a]
        simp only [tgroup]
        split
        · exact Ne.symm h3
        · exact h4 _ (look_mem hg')
    · simp only [set]
      rw [if_neg (Ne.symm h3)]
      exact h.world
  | groupFree g =>
    refine ⟨s, rfl, ?_, by simp [does], rfl, rfl, rfl⟩
    refine ⟨h.next, h.ncomm, h.ngroup, h.req, h.inj, h.base, h.type, h.comm, ?_, h.world⟩
    intro g' id hg
    simp only [does] at hg
    rw [look_del] at hg
    split at hg
    · cases hg
    · exact h.group g' id hg
  | commDup c id =>
    have h2 := getComm_ok h ha.1
    simp only [recOf, act, h2, bind, Except.bind]
    exact ⟨_, rfl, r_comm h ha.2 _, by simp [does, h.ncomm], rfl, rfl, rfl⟩
  | commCreate c g id =>
    obtain ⟨h1, h3, h4, h5⟩ := ha
    have h2 := getComm_ok h h1
    have hg := getGroup_ok h h3
    have he : tgroup k (groupId ps g) = groupId ps g := by
      obtain ⟨i, hi⟩ := Option.isSome_iff_exists.mp h3
      simp [tgroup, groupId, hi, (h.group g i hi).2 h4]
    rw [he] at hg
    simp only [recOf, act, h2, hg, bind, Except.bind]
    exact ⟨_, rfl, r_comm h h5 _, by simp [does, h.ncomm], rfl, rfl, rfl⟩
  | commSplit c color key id =>
    have h2 := getComm_ok h ha.1
    simp only [recOf, act, h2, bind, Except.bind]
    rw [if_neg (by omega), if_neg (by omega)]
    exact ⟨_, rfl, r_comm h ha.2 _, by simp [does, h.ncomm], rfl, rfl, rfl⟩
  | commFree c =>
    obtain ⟨h1, h3⟩ := ha
    have h2 := getComm_ok h h1
    obtain ⟨i, hi⟩ := Option.isSome_iff_exists.mp (show (look c ps.comms).isSome = true from h1)
    have hw := (h.comm c i hi).2 h3
    have hc : commId ps c = i := by simp [commId, hi]
    have he : tcomm k i = i := by simp [tcomm, hw]
    rw [hc, he] at h2
    simp only [recOf, act, hc, h2, bind, Except.bind]
    refine ⟨_, rfl, ?_, by simp [does], rfl, rfl, rfl⟩
    refine ⟨h.next, h.ncomm, h.ngroup, h.req, h.inj, h.base, h.type, ?_, h.group, h.world⟩
    intro c' id' hc'
    simp only [does] at hc'
    rw [look_del] at hc'
    split at hc'
    · cases hc'
    · rename_i hne
      obtain ⟨a, b⟩ := h.comm c' id' hc'
      refine ⟨?_, b⟩
      simp only [set]
      rw [if_neg, a]
      intro hx
      rw [hx] at a
      have := (h.comm c i hi).1
      rw [he, a] at this
      exact hne (Option.some.inj this)
  | init => exact ⟨_, rfl, r_out h _, by simp [does], rfl, rfl, rfl⟩
  | finalize => exact ⟨_, rfl, r_out h _, by simp [does], rfl, rfl, rfl⟩
  | other => exact ⟨s, rfl, h, by simp [does], rfl, rfl, rfl⟩

theorem recOf_init (k : K) (ps : PS) (b : Body) : recOf k ps b = .init ↔ b = .init := by
  cases b with
  | complete way rs fin => cases way <;> simp [recOf]
  | _ => simp [recOf]

theorem deltat_ok {a b : Clock} (ha : clockOk a) (hb : clockOk b) (h : ns b ≤ ns a) :
    deltat a b = (ns a - ns b).toNat := by
  obtain ⟨h1, h2, h3, h4⟩ := ha
  obtain ⟨h5, h6, h7, h8⟩ := hb
  have he : 1000000000 * (a.sec - b.sec) + (a.nsec - b.nsec) = ns a - ns b := by simp only [ns]; omega
  simp only [deltat, he]
  congr 1
  apply Int.emod_eq_of_lt
  · omega
  · simp only [ns] at h ⊢
    omega

/-- The clock of the replay is that of the last call since MPI_Init. -/
def Timed (last : Option Clock) (s : St) : Prop :=
  match last with
  | none => s.inited = false
  | some t => s.inited = true ∧ s.start = t ∧ clockOk t

theorem count_ok (k : K) (c : Rec) (s : St) (h : s.ncoll < k.limit) :
    ∃ s', count k c s = .ok s' ∧ s'.ncoll ≤ s.ncoll + 1 ∧ s' = { s with ncoll := s'.ncoll } := by
  unfold count
  split
  · split <;> exact ⟨_, rfl, by simp⟩
  · rw [if_neg (by omega)]
    split <;> exact ⟨_, rfl, by simp⟩
  · exact ⟨s, rfl, by simp⟩

theorem startMpi_ok {k : K} {last : Option Clock} {s : St} {e : Entry} (h : Timed last s) (hs : clockOk e.start)
    (ha : after last e.start) (hp : e.perf = false) :
    startMpi k e s = .ok { s with out := s.out ++ gap k last e.start } := by
  unfold startMpi
  cases last with
  | none =>
    have : s.inited = false := h
    simp only [this, Bool.not_false, if_true, gap, List.append_nil]
    cases s; cases this; rfl
  | some t =>
    obtain ⟨h1, h2, h3⟩ := h
    simp only [h1, h2, Bool.not_true, Bool.false_eq_true, if_false, hp]
    rw [if_pos h3.1, deltat_ok hs h3 ha]
    rfl

/-- One call of the program, if the count of collectives lets it. -/
theorem step_count {k : K} (hk : Sane k) {ps : PS} {last : Option Clock} {s : St} {op : Op} (h : R k ps s)
    (ht : Timed last s) {sc : St} (e1 : count k (recOf k ps op.body) s = .ok sc) (q1 : sc = { s with ncoll := sc.ncoll }) (ha : allowed k ps op.body) (h1 : clockOk op.start)
    (h2 : clockOk op.stop) (h3 : after last op.start) :
    ∃ s', step k ⟨recOf k ps op.body, op.start, op.stop, false⟩ s = .ok s' ∧ R k (does k ps op.body).2 s' ∧
      Timed (lastAfter last op) s' ∧ s'.ncoll = sc.ncoll ∧
      s'.out = s.out ++ gap k last op.start ++ (does k ps op.body).1 := by
  have rc : R k ps sc := by
    rw [q1]; exact ⟨h.next, h.ncomm, h.ngroup, h.req, h.inj, h.base, h.type, h.comm, h.group, h.world⟩
  have oc : sc.out = s.out := by rw [q1]
  have tc : Timed last sc := by
    rw [q1]
    cases last with
    | none => exact ht
    | some t => exact ht
  have e2 := startMpi_ok (k := k) (e := ⟨recOf k ps op.body, op.start, op.stop, false⟩) tc h1 h3 rfl
  have rs : R k ps { sc with out := sc.out ++ gap k last op.start } := r_out rc _
  obtain ⟨s1, e3, r3, o3, b3, c3, d3⟩ := act_ok hk rs op.body ha
  refine ⟨if recOf k ps op.body = .init then
      { endMpi ⟨recOf k ps op.body, op.start, op.stop, false⟩ s1 with inited := true }
    else endMpi ⟨recOf k ps op.body, op.start, op.stop, false⟩ s1, ?_, ?_, ?_, ?_, ?_⟩
  · simp only [step, e1, e2, e3, bind, Except.bind]
  · split <;> exact ⟨r3.next, r3.ncomm, r3.ngroup, r3.req, r3.inj, r3.base, r3.type, r3.comm, r3.group, r3.world⟩
  · unfold lastAfter
    by_cases hb : op.body = .init
    · rw [if_pos ((recOf_init k ps _).mpr hb), if_pos (.inl hb)]
      exact ⟨rfl, rfl, h2⟩
    · rw [if_neg (fun hx => hb ((recOf_init k ps _).mp hx))]
      cases last with
      | none =>
        rw [if_neg (by simp [hb])]
        show s1.inited = false
        rw [c3]; exact tc
      | some t =>
        rw [if_pos (by simp)]
        refine ⟨?_, rfl, h2⟩
        show s1.inited = true
        rw [c3]; exact tc.1
  · split
    · exact d3
    · exact d3
  · have : s1.out = s.out ++ gap k last op.start ++ (does k ps op.body).1 := by
      rw [o3]
      show (sc.out ++ gap k last op.start) ++ _ = _
      rw [oc]
    split <;> exact this

/-- One call of the program. -/
theorem step_ok {k : K} (hk : Sane k) {ps : PS} {last : Option Clock} {s : St} {op : Op} (h : R k ps s)
    (ht : Timed last s) (hl : s.ncoll < k.limit) (ha : allowed k ps op.body) (h1 : clockOk op.start)
    (h2 : clockOk op.stop) (h3 : after last op.start) :
    ∃ s', step k ⟨recOf k ps op.body, op.start, op.stop, false⟩ s = .ok s' ∧ R k (does k ps op.body).2 s' ∧
      Timed (lastAfter last op) s' ∧ s'.ncoll ≤ s.ncoll + 1 ∧
      s'.out = s.out ++ gap k last op.start ++ (does k ps op.body).1 := by
  obtain ⟨sc, e1, n1, q1⟩ := count_ok k (recOf k ps op.body) s hl
  obtain ⟨s', a, b, c, d, e⟩ := step_count hk h ht e1 q1 ha h1 h2 h3
  exact ⟨s', a, b, c, by rw [d]; exact n1, e⟩

theorem run_ok {k : K} (hk : Sane k) (ops : List Op) :
    ∀ (ps : PS) (last : Option Clock) (s : St), R k ps s → Timed last s → s.ncoll + ops.length ≤ k.limit →
      Legal k ps last ops →
      ∃ s', run k (record k ps ops) s = (s', none) ∧ s'.out = s.out ++ faithful k ps last ops := by
  induction ops with
  | nil => intro ps last s _ _ _ _; exact ⟨s, rfl, by simp [faithful]⟩
  | cons op ops ih =>
    intro ps last s h ht hl hleg
    obtain ⟨a1, a2, a3, a4, a5⟩ := hleg
    simp only [List.length_cons] at hl
    obtain ⟨s1, e1, r1, t1, n1, o1⟩ := step_ok hk h ht (by omega) a1 a2 a3 a4
    obtain ⟨s2, e2, o2⟩ := ih _ _ s1 r1 t1 (by omega) a5
    refine ⟨s2, ?_, ?_⟩
    · simp only [record, run, e1]; exact e2
    · rw [o2, o1]; simp [faithful]

end Verif.Dumpi
