import Verif.Coll.DagLemmas
/-!
Collectives whose actions are arranged in rounds: the shape that `initDag` of the built-in
algorithms produces.  In a round a process exchanges messages with partners; every action
depends on the actions of the process's previous (non-empty) round:
    addDependency(prev_send, send_ac); addDependency(prev_recv, send_ac);
    addDependency(prev_send, recv_ac); addDependency(prev_recv, recv_ac);
(allgather.cc:138-141 and 251-254, allreduce.cc:157-160, ...).

A process is a rank, or a virtual rank run by a rank (`real`); processes of one rank share
that rank's memory.  Memory is addressed by rank, buffer and element.
-/
set_option autoImplicit false
namespace SST.Coll

/-- Element `idx` of buffer `buf` of a rank. -/
abbrev Loc := Nat × Nat × Nat

/-- The region a send or receive uses (`Action::offset`, `Action::nelems`, and the buffer
chosen by `getSendBuffer` / `dataRecved`, collective_actor.cc:673-697 and 578-636), and
whether a receive reduces into it. -/
structure Xfer where
  buf : Nat
  off : Nat
  len : Nat
  red : Bool := false
deriving DecidableEq, Repr

/-- One action: process, round, kind and partner process. -/
structure Act where
  p : Nat
  i : Nat
  k : Kind
  q : Nat
deriving DecidableEq, Repr

/-- A local action: the elements (buffer, index) of its rank it may change, those it uses,
and its effect. -/
structure LocalOp (V : Type) where
  wr : Nat → Nat → Bool
  use : Nat → Nat → Bool
  f : (Nat → Nat → V) → Nat → Nat → V

/-- A collective in rounds: what `initDag` of an algorithm builds on all processes (allgather.cc:138-141, allreduce.cc:157-160, ...). -/
structure Rounds (V : Type) where
  /-- number of processes: 0 .. procs-1 -/
  procs : Nat
  /-- number of rounds -/
  T : Nat
  /-- the rank that runs a process -/
  real : Nat → Nat
  /-- the round number carried by the messages of a process in a round -/
  tag : Nat → Nat → Nat
  /-- `send p i q`: what p sends to q in round i -/
  send : Nat → Nat → Nat → Option Xfer
  /-- `recv q i p`: where q puts what it receives from p in round i -/
  recv : Nat → Nat → Nat → Option Xfer
  /-- the shuffle of a process in a round -/
  loc : Nat → Nat → Option (LocalOp V)
  op : V → V → V
  /-- further dependencies: `join a b` makes `a` wait for the earlier action `b` -/
  join : Act → Act → Prop := fun _ _ => False

variable {V : Type}

namespace Rounds
variable (R : Rounds V)

/-- Whether `initDag` creates the action. -/
def has (a : Act) : Bool :=
  match a.k with
  | .send => (R.send a.p a.i a.q).isSome
  | .recv => (R.recv a.p a.i a.q).isSome
  | .loc => (R.loc a.p a.i).isSome && a.q == a.p

/-- All actions of all processes. -/
def acts : List Act :=
  ((List.range R.procs).flatMap fun p => (List.range R.T).flatMap fun i =>
    (List.range R.procs).flatMap fun q =>
      [⟨p, i, .send, q⟩, ⟨p, i, .recv, q⟩, ⟨p, i, .loc, q⟩]).filter R.has

/-- The region of a send or receive (`Action::offset`, `Action::nelems`, collective_actor.h:75-135). -/
def xfer (a : Act) : Option Xfer :=
  match a.k with
  | .send => R.send a.p a.i a.q
  | .recv => R.recv a.p a.i a.q
  | .loc => none

/-- Whether an element of a rank lies in a region. -/
def inX (x : Xfer) (rank : Nat) (l : Loc) : Bool :=
  l.1 == rank && l.2.1 == x.buf && x.off ≤ l.2.2 && l.2.2 < x.off + x.len

/-- The elements an action may change (`dataRecved`, collective_actor.cc:578-636). -/
def writesB (a : Act) (l : Loc) : Bool :=
  match a.k with
  | .send => false
  | .recv => match R.recv a.p a.i a.q with
    | some x => inX x (R.real a.p) l
    | none => false
  | .loc => match R.loc a.p a.i with
    | some o => l.1 == R.real a.p && o.wr l.2.1 l.2.2
    | none => false

/-- The elements whose value an action uses. -/
def touchB (a : Act) (l : Loc) : Bool :=
  match a.k with
  | .send => match R.send a.p a.i a.q with
    | some x => inX x (R.real a.p) l
    | none => false
  | .recv => R.writesB a l
  | .loc => match R.loc a.p a.i with
    | some o => l.1 == R.real a.p && o.use l.2.1 l.2.2
    | none => false

/-- The elements a send transmits, in order (`getSendBuffer`, collective_actor.cc:673-697). -/
def readsL (a : Act) : List Loc :=
  match R.send a.p a.i a.q with
  | some x => (List.range x.len).map fun j => (R.real a.p, x.buf, x.off + j)
  | none => []

/-- The effect of an action: a receive stores the payload, or combines it with what is
there (`unpackReduceBuffer`, collective_actor.cc:604-612: `fxn(dst, src)` is
`dst = dst op src`). -/
def effF (a : Act) (pl : List V) (M : Loc → V) (l : Loc) : V :=
  match a.k with
  | .send => M l
  | .recv => match R.recv a.p a.i a.q with
    | some x => if inX x (R.real a.p) l then
        match pl[l.2.2 - x.off]? with
        | some v => if x.red then R.op (M l) v else v
        | none => M l
      else M l
    | none => M l
  | .loc => match R.loc a.p a.i with
    | some o => if l.1 == R.real a.p && o.wr l.2.1 l.2.2 then
        o.f (fun b x => M (R.real a.p, b, x)) l.2.1 l.2.2
      else M l
    | none => M l

/-- Each action depends on the actions of the last earlier round in which its process has
any, and on those it is joined to. -/
def seqDep (a b : Act) : Prop :=
  b.i < a.i ∧ b ∈ R.acts ∧
    ((a.p = b.p ∧ ∀ c ∈ R.acts, c.p = a.p → ¬ (b.i < c.i ∧ c.i < a.i)) ∨ R.join a b)

/-- The other side of a send or receive. -/
def peerF (a : Act) : Act :=
  match a.k with
  | .send => ⟨a.q, a.i, .recv, a.p⟩
  | .recv => ⟨a.q, a.i, .send, a.p⟩
  | .loc => a

/-- What a message is matched by: receiver, sender and round (`Action::messageId`, collective_actor.h:106-112). -/
def keyF (a : Act) : Nat × Nat × Nat :=
  match a.k with
  | .recv => (R.real a.p, R.real a.q, R.tag a.p a.i)
  | _ => (R.real a.q, R.real a.p, R.tag a.p a.i)

/-- The system of all actions. -/
def sys : Sys Act Loc V (Nat × Nat × Nat) where
  all := R.acts
  kind := Act.k
  peer := peerF
  key := R.keyF
  dep := R.seqDep
  reads := R.readsL
  writes := fun a l => R.writesB a l = true
  touch := fun a l => R.touchB a l = true
  eff := R.effF

/-- The memory after `i` rounds executed one after the other on all ranks. -/
def sync (M0 : Loc → V) : Nat → Loc → V
  | 0 => M0
  | i + 1 => fun l =>
    match R.acts.find? (fun a => a.i == i && R.writesB a l) with
    | none => sync M0 i l
    | some a => R.effF a (if a.k = .recv then (R.readsL (peerF a)).map (sync M0 i) else []) (sync M0 i) l

/-- Conditions under which a collective in rounds is executed correctly by every schedule. -/
structure Ok : Prop where
  matched : ∀ p i q x, p < R.procs → i < R.T → q < R.procs → R.send p i q = some x →
    ∃ y, R.recv q i p = some y ∧ y.len = x.len
  matched' : ∀ p i q y, p < R.procs → i < R.T → q < R.procs → R.recv q i p = some y →
    ∃ x, R.send p i q = some x
  tags : ∀ p i q x, p < R.procs → i < R.T → q < R.procs → R.send p i q = some x →
    R.tag p i = R.tag q i
  keys : ∀ p i q p' i' q' x x', p < R.procs → i < R.T → q < R.procs → p' < R.procs → i' < R.T →
    q' < R.procs → R.recv p i q = some x → R.recv p' i' q' = some x' → R.real p = R.real p' →
    R.real q = R.real q' → R.tag p i = R.tag p' i' → p = p' ∧ i = i' ∧ q = q'
  /-- accesses of different processes of one rank do not overlap -/
  sep : ∀ a b l, a ∈ R.acts → b ∈ R.acts → a.p ≠ b.p → R.writesB a l = true →
    (R.writesB b l = true ∨ R.touchB b l = true) → False
  /-- accesses in the same round do not overlap -/
  round : ∀ a b l, a ∈ R.acts → b ∈ R.acts → a ≠ b → a.p = b.p → a.i = b.i → R.writesB a l = true →
    (R.writesB b l = true ∨ R.touchB b l = true) → False
  /-- the result of a local action depends only on what it declares to use -/
  localOk : ∀ p i o M M' b x, R.loc p i = some o → o.wr b x = true →
    (∀ b' x', o.use b' x' = true → M b' x' = M' b' x') → o.f M b x = o.f M' b x

theorem mem_acts {R : Rounds V} {a : Act} :
    a ∈ R.acts ↔ a.p < R.procs ∧ a.i < R.T ∧ a.q < R.procs ∧ R.has a = true := by
  unfold acts
  simp only [List.mem_filter, List.mem_flatMap, List.mem_range]
  constructor
  · rintro ⟨⟨p, hp, i, hi, q, hq, hm⟩, hh⟩
    simp only [List.mem_cons, List.not_mem_nil, or_false] at hm
    rcases hm with rfl | rfl | rfl <;> exact ⟨hp, hi, hq, hh⟩
  · rintro ⟨hp, hi, hq, hh⟩
    refine ⟨⟨a.p, hp, a.i, hi, a.q, hq, ?_⟩, hh⟩
    obtain ⟨p, i, k, q⟩ := a
    cases k <;> simp

theorem waits_seq {R : Rounds V} (d : Nat) : ∀ a b : Act, a ∈ R.acts → b ∈ R.acts → a.p = b.p → b.i < a.i →
    a.i - b.i ≤ d → Waits R.sys a b := by
  induction d with
  | zero => intro a b _ _ _ h1 h2; omega
  | succ d ih =>
    intro a b ha hb hp hlt hd
    by_cases hc : ∃ c ∈ R.acts, c.p = a.p ∧ b.i < c.i ∧ c.i < a.i
    · obtain ⟨c, hcm, ⟨hcp, hc1, hc2⟩, hmin⟩ :=
        exists_min R.acts (fun c => c.p = a.p ∧ b.i < c.i ∧ c.i < a.i) (fun c => a.i - c.i) hc
      refine Waits.more (b := c) ⟨hc2, hcm, Or.inl ⟨hcp.symm, ?_⟩⟩ (ih c b hcm hb (by omega) hc1 (by omega))
      rintro c' hc' hp' ⟨h1, h2⟩
      have := hmin c' hc' ⟨hp', by omega, h2⟩
      omega
    · refine Waits.one ⟨hlt, hb, Or.inl ⟨hp, ?_⟩⟩
      intro c hcm hcp h
      exact hc ⟨c, hcm, hcp, h.1, h.2⟩

variable {R}

theorem uniq_writer (ok : R.Ok) {a b : Act} {l : Loc} (ha : a ∈ R.acts) (hb : b ∈ R.acts) (hi : a.i = b.i)
    (h1 : R.writesB a l = true) (h2 : R.writesB b l = true) : a = b := by
  by_cases hab : a = b
  · exact hab
  · by_cases hp : a.p = b.p
    · exact absurd (ok.round a b l ha hb hab hp hi h1 (Or.inl h2)) id
    · exact absurd (ok.sep a b l ha hb hp h1 (Or.inl h2)) id

/-- A writer of round `i` determines the new value. -/
theorem sync_write (ok : R.Ok) (M0 : Loc → V) {a : Act} {l : Loc} (ha : a ∈ R.acts)
    (hw : R.writesB a l = true) :
    R.sync M0 (a.i + 1) l =
      R.effF a (if a.k = .recv then (R.readsL (peerF a)).map (R.sync M0 a.i) else []) (R.sync M0 a.i) l := by
  show (match R.acts.find? (fun b => b.i == a.i && R.writesB b l) with | none => _ | some b => _) = _
  cases hf : R.acts.find? (fun b => b.i == a.i && R.writesB b l) with
  | none =>
    have := List.find?_eq_none.mp hf a ha
    simp [hw] at this
  | some b =>
    have h1 := List.find?_some hf
    have h2 := List.mem_of_find?_eq_some hf
    simp only [Bool.and_eq_true, beq_iff_eq] at h1
    have hba := uniq_writer ok ha h2 h1.1.symm hw h1.2
    subst hba
    rfl

/-- Elements nobody writes in round `i` keep their value. -/
theorem sync_keep (M0 : Loc → V) (i : Nat) (l : Loc)
    (h : ∀ a ∈ R.acts, a.i = i → R.writesB a l = false) : R.sync M0 (i + 1) l = R.sync M0 i l := by
  show (match R.acts.find? (fun b => b.i == i && R.writesB b l) with | none => _ | some b => _) = _
  cases hf : R.acts.find? (fun b => b.i == i && R.writesB b l) with
  | none => rfl
  | some b =>
    have h1 := List.find?_some hf
    have h2 := List.mem_of_find?_eq_some hf
    simp only [Bool.and_eq_true, beq_iff_eq] at h1
    rw [h b h2 h1.1] at h1
    simp at h1

/-- Receive of element `j` of the message of `q` in round `i`. -/
theorem sync_recv (ok : R.Ok) (M0 : Loc → V) {p i q : Nat} {x y : Xfer} (hp : p < R.procs) (hi : i < R.T)
    (hq : q < R.procs) (hs : R.send q i p = some x) (hr : R.recv p i q = some y) (j : Nat) (hj : j < x.len) :
    R.sync M0 (i + 1) (R.real p, y.buf, y.off + j) =
      (if y.red then R.op (R.sync M0 i (R.real p, y.buf, y.off + j))
        (R.sync M0 i (R.real q, x.buf, x.off + j))
       else R.sync M0 i (R.real q, x.buf, x.off + j)) := by
  obtain ⟨y', hy', hlen⟩ := ok.matched q i p x hq hi hp hs
  rw [hr] at hy'
  simp only [Option.some.injEq] at hy'
  subst hy'
  have hin : inX y (R.real p) (R.real p, y.buf, y.off + j) = true := by
    simp [inX, hlen, hj]
  have ha : (⟨p, i, .recv, q⟩ : Act) ∈ R.acts := mem_acts.mpr ⟨hp, hi, hq, by simp [has, hr]⟩
  have hw : R.writesB ⟨p, i, .recv, q⟩ (R.real p, y.buf, y.off + j) = true := by
    simp [writesB, hr, hin]
  rw [sync_write ok M0 ha hw]
  simp only [effF, hr, hin, if_true, peerF, readsL, hs]
  have : y.off + j - y.off = j := by omega
  rw [this, List.map_map, List.getElem?_map, List.getElem?_range hj]
  rfl

theorem good (ok : R.Ok) (M0 : Loc → V) : Good R.sys Act.i M0 (R.sync M0) := by
  have hsend : ∀ a : Act, a ∈ R.acts → a.k = .send → ∃ x, R.send a.p a.i a.q = some x := by
    intro a ha hk
    have := (mem_acts.mp ha).2.2.2
    simp only [has, hk] at this
    exact Option.isSome_iff_exists.mp this
  have hrecv : ∀ a : Act, a ∈ R.acts → a.k = .recv → ∃ x, R.recv a.p a.i a.q = some x := by
    intro a ha hk
    have := (mem_acts.mp ha).2.2.2
    simp only [has, hk] at this
    exact Option.isSome_iff_exists.mp this
  refine ⟨rfl, ?_, ?_, ?_, ?_, ?_, ?_, ?_, ?_, ?_, ?_, ?_, ?_⟩
  · intro a b _ h; exact h.2.1
  · intro a b _ h; exact h.1
  · intro a ha hk
    obtain ⟨x, hx⟩ := hsend a ha hk
    obtain ⟨hp, hi, hq, _⟩ := mem_acts.mp ha
    obtain ⟨y, hy, _⟩ := ok.matched _ _ _ _ hp hi hq hx
    have hk' : a.k = .send := hk
    obtain ⟨p, i, k, q⟩ := a
    subst hk'
    refine ⟨mem_acts.mpr ⟨hq, hi, hp, ?_⟩, rfl, ?_, rfl, rfl⟩
    · simp [has, sys, peerF, hy]
    · simp only [sys, keyF, peerF]
      rw [ok.tags _ _ _ _ hp hi hq hx]
  · intro r hr hk
    obtain ⟨y, hy⟩ := hrecv r hr hk
    obtain ⟨hp, hi, hq, _⟩ := mem_acts.mp hr
    obtain ⟨x, hx⟩ := ok.matched' _ _ _ _ hq hi hp hy
    have hk' : r.k = .recv := hk
    obtain ⟨p, i, k, q⟩ := r
    subst hk'
    refine ⟨mem_acts.mpr ⟨hq, hi, hp, ?_⟩, rfl, rfl⟩
    simp [has, sys, peerF, hx]
  · intro r r' hr hr' hk hk' hkey
    obtain ⟨y, hy⟩ := hrecv r hr hk
    obtain ⟨y', hy'⟩ := hrecv r' hr' hk'
    obtain ⟨hp, hi, hq, _⟩ := mem_acts.mp hr
    obtain ⟨hp', hi', hq', _⟩ := mem_acts.mp hr'
    have e1 : r.k = .recv := hk
    have e2 : r'.k = .recv := hk'
    obtain ⟨p, i, k, q⟩ := r
    obtain ⟨p', i', k', q'⟩ := r'
    subst e1
    subst e2
    simp only [sys, keyF, Prod.mk.injEq] at hkey
    obtain ⟨h1, h2, h3⟩ := ok.keys _ _ _ _ _ _ _ _ hp hi hq hp' hi' hq' hy hy' hkey.1 hkey.2.1 hkey.2.2
    simp only at h1 h2 h3
    rw [h1, h2, h3]
  · intro a l hk hl
    have hk' : a.k = .send := hk
    simp only [sys, readsL] at hl
    simp only [sys, touchB, hk']
    cases hx : R.send a.p a.i a.q with
    | none => rw [hx] at hl; simp at hl
    | some x =>
      rw [hx] at hl
      simp only [List.mem_map, List.mem_range] at hl
      obtain ⟨j, hj, rfl⟩ := hl
      simp [inX, hj]
  · intro a l _ hk
    have hk' : a.k = .send := hk
    simp [sys, writesB, hk']
  · intro a pl M l _ hw
    simp only [sys, writesB] at hw
    simp only [sys, effF]
    cases hk : a.k with
    | send => rfl
    | recv =>
      simp only [hk] at hw
      cases hx : R.recv a.p a.i a.q with
      | none => rfl
      | some x =>
        simp only [hx] at hw
        simp only [if_neg hw]
    | loc =>
      simp only [hk] at hw
      cases hx : R.loc a.p a.i with
      | none => rfl
      | some x =>
        simp only [hx] at hw
        simp only [if_neg hw]
  · intro a pl M M' l _ hw hag
    have hw' : R.writesB a l = true := hw
    simp only [sys, effF]
    have hag' : ∀ x, R.touchB a x = true → M x = M' x := hag
    cases hk : a.k with
    | send => simp [writesB, hk] at hw'
    | recv =>
      have hMl : M l = M' l := hag' l (by simp only [touchB, hk]; exact hw')
      cases hx : R.recv a.p a.i a.q with
      | none => exact hMl
      | some x => simp only [hMl]
    | loc =>
      simp only [writesB, hk] at hw'
      cases hx : R.loc a.p a.i with
      | none => simp [hx] at hw'
      | some o =>
        simp only [hx] at hw'
        simp only [hw', if_true]
        simp only [Bool.and_eq_true, beq_iff_eq] at hw'
        apply ok.localOk a.p a.i o _ _ _ _ hx hw'.2
        intro b' x' hu
        apply hag'
        simp [touchB, hk, hx, hu]
  · intro a b l ha hb hab hw hu
    have hw' : R.writesB a l = true := hw
    have hu' : R.writesB b l = true ∨ R.touchB b l = true := hu
    by_cases hp : a.p = b.p
    · rcases Nat.lt_trichotomy a.i b.i with h | h | h
      · exact Or.inl ⟨h, waits_seq (b.i - a.i) b a hb ha hp.symm h (by omega)⟩
      · exact absurd (ok.round a b l ha hb hab hp h hw' hu') id
      · exact Or.inr ⟨h, waits_seq (a.i - b.i) a b ha hb hp h (by omega)⟩
    · exact absurd (ok.sep a b l ha hb hp hw' hu') id
  · intro a l ha hw
    exact sync_write ok M0 ha hw
  · intro i l h
    apply sync_keep
    intro a ha hi
    have := h a ha hi
    simpa [sys] using this

/-- Every execution of the collective ends with the memory of the round-by-round
execution. -/
theorem ends (ok : R.Ok) (M0 : Loc → V) (Q : (Loc → V) → Prop) (hQ : Q (R.sync M0 R.T)) :
    Yields R.sys M0 Q :=
  yields (good ok M0) R.T (fun _ ha => (mem_acts.mp ha).2.1) Q hQ

/-- With one process per rank, accesses of different processes never overlap. -/
theorem sep_of_inj (hinj : ∀ p q, p < R.procs → q < R.procs → R.real p = R.real q → p = q) :
    ∀ a b l, a ∈ R.acts → b ∈ R.acts → a.p ≠ b.p → R.writesB a l = true →
    (R.writesB b l = true ∨ R.touchB b l = true) → False := by
  intro a b l ha hb hne hw hu
  have rank_w : ∀ c : Act, R.writesB c l = true → l.1 = R.real c.p := by
    intro c h
    simp only [writesB] at h
    split at h
    · simp at h
    · split at h
      · simp only [inX, Bool.and_eq_true, beq_iff_eq] at h; exact h.1.1.1
      · simp at h
    · split at h
      · simp only [Bool.and_eq_true, beq_iff_eq] at h; exact h.1
      · simp at h
  have rank_t : ∀ c : Act, R.touchB c l = true → l.1 = R.real c.p := by
    intro c h
    simp only [touchB] at h
    split at h
    · split at h
      · simp only [inX, Bool.and_eq_true, beq_iff_eq] at h; exact h.1.1.1
      · simp at h
    · exact rank_w c h
    · split at h
      · simp only [Bool.and_eq_true, beq_iff_eq] at h; exact h.1
      · simp at h
  have h1 := rank_w a hw
  have h2 : l.1 = R.real b.p := by
    rcases hu with hu | hu
    · exact rank_w b hu
    · exact rank_t b hu
  exact hne (hinj _ _ (mem_acts.mp ha).1 (mem_acts.mp hb).1 (h1.symm.trans h2))

/-- Element `(rank, buf, x)` is not touched in round `i` if no receive or shuffle of that
round writes it. -/
theorem sync_keep' (M0 : Loc → V) (i p b x : Nat)
    (hreal : ∀ q, q < R.procs → R.real q = p → q = p)
    (hr : ∀ q y, q < R.procs → R.recv p i q = some y → ¬ (y.buf = b ∧ y.off ≤ x ∧ x < y.off + y.len))
    (hl : ∀ o, R.loc p i = some o → o.wr b x = false) :
    R.sync M0 (i + 1) (p, b, x) = R.sync M0 i (p, b, x) := by
  apply sync_keep
  intro a ha hi
  obtain ⟨hp, _, hq, _⟩ := mem_acts.mp ha
  rw [Bool.eq_false_iff]
  intro hw
  simp only [writesB] at hw
  split at hw
  · simp at hw
  · split at hw
    · rename_i y hy
      simp only [inX, Bool.and_eq_true, beq_iff_eq, decide_eq_true_eq] at hw
      obtain ⟨⟨⟨h1, h2⟩, h3⟩, h4⟩ := hw
      have hap := hreal a.p hp h1.symm
      rw [hap, hi] at hy
      exact hr a.q y hq hy ⟨h2.symm, h3, h4⟩
    · simp at hw
  · split at hw
    · rename_i o ho
      simp only [Bool.and_eq_true, beq_iff_eq] at hw
      have hap := hreal a.p hp hw.1.symm
      rw [hap, hi] at ho
      rw [hl o ho] at hw
      simp at hw
    · simp at hw

/-- The conditions for collectives with one process per rank, no shuffles, and at most one
send and one receive per process and round. -/
theorem ok_simple (hreal : R.real = id) (hloc : ∀ p i, R.loc p i = none)
    (htag : ∀ p q i, R.tag p i = R.tag q i)
    (htag' : ∀ p i j, i < R.T → j < R.T → R.tag p i = R.tag p j → i = j)
    (hm : ∀ p i q x, p < R.procs → i < R.T → q < R.procs → R.send p i q = some x →
      ∃ y, R.recv q i p = some y ∧ y.len = x.len)
    (hm' : ∀ p i q y, p < R.procs → i < R.T → q < R.procs → R.recv q i p = some y →
      ∃ x, R.send p i q = some x)
    (hone : ∀ p i q q' x x', p < R.procs → i < R.T → q < R.procs → q' < R.procs →
      R.recv p i q = some x → R.recv p i q' = some x' → q ≠ q' → x.buf = x'.buf →
        x.off + x.len ≤ x'.off ∨ x'.off + x'.len ≤ x.off)
    (hdis : ∀ p i q q' x y, p < R.procs → i < R.T → q < R.procs → q' < R.procs →
      R.send p i q = some x → R.recv p i q' = some y → x.buf = y.buf →
        x.off + x.len ≤ y.off ∨ y.off + y.len ≤ x.off) : R.Ok := by
  refine ⟨hm, hm', ?_, ?_, ?_, ?_, ?_⟩
  · intro p i q x _ _ _ _; exact htag p q i
  · intro p i q p' i' q' x x' hp hi hq hp' hi' hq' _ _ h1 h2 h3
    rw [hreal] at h1 h2
    simp only [id_eq] at h1 h2
    subst h1
    subst h2
    exact ⟨rfl, htag' p i i' hi hi' h3, rfl⟩
  · apply sep_of_inj
    intro p q _ _ h
    simpa [hreal] using h
  · intro a b l ha hb hab hp hi hw hu
    obtain ⟨hap, hai, haq, _⟩ := mem_acts.mp ha
    obtain ⟨_, _, hbq, _⟩ := mem_acts.mp hb
    obtain ⟨p, i, k, q⟩ := a
    obtain ⟨p', i', k', q'⟩ := b
    simp only at hp hi hap hai haq hbq
    subst hp
    subst hi
    cases k with
    | send => simp [writesB] at hw
    | loc => simp [writesB, hloc] at hw
    | recv =>
      simp only [writesB] at hw
      cases hy : R.recv p i q with
      | none => rw [hy] at hw; simp at hw
      | some y =>
        rw [hy] at hw
        simp only [inX, Bool.and_eq_true, beq_iff_eq, decide_eq_true_eq] at hw
        cases k' with
        | loc => simp [writesB, touchB, hloc] at hu
        | recv =>
          have hqq : q ≠ q' := by intro e; subst e; exact hab rfl
          simp only [writesB, touchB, or_self] at hu
          cases hy' : R.recv p i q' with
          | none => rw [hy'] at hu; simp at hu
          | some y' =>
            rw [hy'] at hu
            simp only [inX, Bool.and_eq_true, beq_iff_eq, decide_eq_true_eq] at hu
            have := hone p i q q' y y' hap hai haq hbq hy hy' hqq (by omega)
            omega
        | send =>
          simp only [writesB, touchB, Bool.false_eq_true, false_or] at hu
          cases hx : R.send p i q' with
          | none => rw [hx] at hu; simp at hu
          | some x =>
            rw [hx] at hu
            simp only [inX, Bool.and_eq_true, beq_iff_eq, decide_eq_true_eq] at hu
            have := hdis p i q' q x y hap hai hbq haq hx hy (by omega)
            omega
  · intro p i o M M' b x h
    rw [hloc] at h
    simp at h

end Rounds
end SST.Coll
