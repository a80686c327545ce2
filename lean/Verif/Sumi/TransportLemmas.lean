import Verif.Sumi.Transport
/-! Invariants of the transport (C121). -/
set_option autoImplicit false
namespace SST.Sumi.Tp

/-! ### Specification -/

/-- A completion: process, queue, the number of the call, and whether it is that of the side whose data
left (`ack`) or of the side that got data. -/
structure Compl where
  aid : Nat
  rank : Nat
  cq : Int
  op : Nat
  ack : Bool
deriving DecidableEq, Repr

/-- A completion on a queue, or none if no queue was given. -/
def at_ (a r : Nat) (cq : Int) (k : Nat) (ack : Bool) : List Compl := if cq = noAck then [] else [⟨a, r, cq, k, ack⟩]

/-- What the `k`-th communication call has to lead to. -/
def Op.expects (k : Nat) : Op → List Compl
  | .smsg a r q lcq rcq | .post a r q lcq rcq | .put a r q lcq rcq => at_ a q rcq k false ++ at_ a r lcq k true
  | .get a r q lcq rcq => at_ a r lcq k false ++ at_ a q rcq k true
  | .smsgResp a r m lcq rcq | .putResp a r m lcq rcq => at_ a m.sender rcq k false ++ at_ a r lcq k true
  | .getResp a r m lcq rcq => at_ a r lcq k false ++ at_ a m.sender rcq k true
  | _ => []

/-- The communication calls. -/
def Op.comm : Op → Bool
  | .smsg .. | .post .. | .put .. | .get .. | .smsgResp .. | .putResp .. | .getResp .. => true
  | _ => false

/-- What all calls have to lead to; they are numbered from `k`. -/
def expected (k : Nat) : List Op → List Compl
  | [] => []
  | op :: ops => op.expects k ++ expected (if op.comm then k + 1 else k) ops

/-- The queues of a call: none or a number. -/
def Op.queuesOk : Op → Prop
  | .smsg _ _ _ l r | .post _ _ _ l r | .put _ _ _ l r | .get _ _ _ l r | .smsgResp _ _ _ l r | .putResp _ _ _ l r
  | .getResp _ _ _ l r => -1 ≤ l ∧ -1 ≤ r
  | _ => True

/-- `rdmaGet` is only used within a process. -/
def Op.noGet : Op → Prop
  | .get _ r q _ _ => q = r
  | _ => True

/-- The completion that a call of a queue function is. -/
def Deliv.key (d : Deliv) : Compl := ⟨d.aid, d.rank, d.cq, d.msg.op, d.msg.kind.isAck⟩

/-- The completion that a held message will be. -/
def hkey (x : Nat × Nat × Int × Msg) : Compl := ⟨x.1, x.2.1, x.2.2.1, x.2.2.2.op, x.2.2.2.kind.isAck⟩

/-- The completions that a message on the way stands for. -/
def oblig (x : Nat × Msg) : List Compl :=
  match x.2.kind with
  | .getReq => at_ x.2.aid x.2.recver x.2.recvCq x.2.op false ++ at_ x.2.aid x.2.sender x.2.sendCq x.2.op true
  | .smsg | .posted | .getPay | .putPay => at_ x.2.aid x.2.recver x.2.recvCq x.2.op false
  | .sentAck | .getAck | .putAck => at_ x.2.aid x.2.sender x.2.sendCq x.2.op true

/-- What was completed, and what is on the way or waits. -/
def total (s : St) : List Compl :=
  s.log.map Deliv.key ++ (s.net.flatMap oblig ++ (s.pending.flatMap oblig ++ (s.held.map hkey ++ s.lost.map hkey)))

/-! ### Well-formed messages -/

/-- A message on the way to node `n`: the nodes are those of its ranks. -/
def Wf (node : Nat → Nat → Nat) (x : Nat × Msg) : Prop :=
  x.2.needsAck = decide (x.2.sendCq ≠ noAck) ∧ -1 ≤ x.2.sendCq ∧ -1 ≤ x.2.recvCq ∧
  match x.2.kind with
  | .getReq => x.1 = node x.2.aid x.2.sender ∧ x.2.toNode = node x.2.aid x.2.sender ∧ x.2.fromNode = node x.2.aid x.2.recver
  | .smsg | .posted | .getPay | .putPay => x.1 = node x.2.aid x.2.recver ∧ x.2.toNode = node x.2.aid x.2.recver ∧ x.2.fromNode = node x.2.aid x.2.sender
  | .sentAck | .getAck | .putAck => x.1 = node x.2.aid x.2.sender

/-- A message that was given to a process. -/
def WfD (node : Nat → Nat → Nat) (d : Deliv) : Prop :=
  d.msg.kind.isAck = false → d.msg.kind ≠ .getReq ∧ d.msg.aid = d.aid ∧ d.msg.recver = d.rank ∧
    d.msg.toNode = node d.aid d.rank ∧ d.msg.fromNode = node d.aid d.msg.sender

/-- The rank of a message that is not a request. -/
def Msg.rank (m : Msg) : Nat := if m.kind.isAck then m.sender else m.recver

/-- The queue of a message that is not a request. -/
def Msg.cq (m : Msg) : Int := if m.kind.isAck then m.sendCq else m.recvCq

theorem target_eq (m : Msg) (h : m.kind ≠ .getReq) : m.target = .ok m.rank := by
  unfold Msg.target Msg.rank
  cases hk : m.kind <;> first | exact absurd hk h | rfl

theorem target_ok {m : Msg} {t : Nat} (h : m.target = .ok t) : m.kind ≠ .getReq ∧ t = m.rank := by
  by_cases hk : m.kind = .getReq
  · unfold Msg.target at h; rw [hk] at h; cases h
  · rw [target_eq m hk] at h; exact ⟨hk, (Except.ok.inj h).symm⟩

theorem oblig_eq (n : Nat) (m : Msg) (h : m.kind ≠ .getReq) : oblig (n, m) = at_ m.aid m.rank m.cq m.op m.kind.isAck := by
  unfold oblig Msg.rank Msg.cq
  cases hk : m.kind <;> first | exact absurd hk h | rfl

theorem wf_node {node : Nat → Nat → Nat} {n : Nat} {m : Msg} (h : Wf node (n, m)) (hk : m.kind ≠ .getReq) : n = node m.aid m.rank := by
  have h4 := h.2.2.2
  unfold Msg.rank
  revert h4
  cases hk' : m.kind <;> intro h4 <;> first | exact absurd hk' hk | exact h4.1 | exact h4

theorem wf_cq {node : Nat → Nat → Nat} {n : Nat} {m : Msg} (h : Wf node (n, m)) : -1 ≤ m.cq := by
  unfold Msg.cq
  split
  · exact h.2.1
  · exact h.2.2.1

/-! ### What steps change -/

/-- Only the log grows. -/
theorem call_ok {s s' : St} {a r : Nat} {p : Proc} {cq : Int} {m : Msg} (h : call s a r p cq m = .ok s') :
    ∃ f, 0 ≤ cq ∧ p.cqs[cq.toNat]? = some (some f) ∧ s' = { s with log := s.log ++ [⟨a, r, cq, f, m⟩] } := by
  unfold call at h
  split at h
  · cases h
  · next hr =>
    split at h
    · next f hf => exact ⟨f, by omega, hf, (Except.ok.inj h).symm⟩
    · cases h

/-- Dropped, held or given to the function. -/
theorem incoming_ok {s s' : St} {a r : Nat} {p : Proc} {m : Msg} (h : incomingMessage s a r p m = .ok s') :
    (m.cq = noAck ∧ s' = s) ∨
    (m.cq ≠ noAck ∧ (m.cq < 0 ∨ (p.cqs.length : Int) ≤ m.cq) ∧ s' = { s with held := s.held ++ [(a, r, m.cq, m)] }) ∨
    (m.cq ≠ noAck ∧ ∃ f, 0 ≤ m.cq ∧ p.cqs[m.cq.toNat]? = some (some f) ∧ s' = { s with log := s.log ++ [⟨a, r, m.cq, f, m⟩] }) := by
  unfold incomingMessage at h
  change (if m.cq = noAck then _ else if m.cq < 0 ∨ (p.cqs.length : Int) ≤ m.cq then _ else _) = _ at h
  split at h
  · next h1 => exact .inl ⟨h1, (Except.ok.inj h).symm⟩
  · next h1 =>
    split at h
    · next h2 => exact .inr (.inl ⟨h1, h2, (Except.ok.inj h).symm⟩)
    · exact .inr (.inr ⟨h1, call_ok h⟩)

theorem count_at (a r : Nat) (cq : Int) (k : Nat) (b : Bool) (h : cq ≠ noAck) : at_ a r cq k b = [⟨a, r, cq, k, b⟩] := by
  unfold at_; rw [if_neg h]

theorem total_incoming {s s' : St} {a r : Nat} {p : Proc} {m : Msg} (h : incomingMessage s a r p m = .ok s') :
    (total s').Perm (total s ++ at_ a r m.cq m.op m.kind.isAck) := by
  rw [List.perm_iff_count]
  intro e
  rcases incoming_ok h with ⟨h1, rfl⟩ | ⟨h1, _, rfl⟩ | ⟨h1, f, _, _, rfl⟩
  · unfold at_; rw [if_pos h1, List.append_nil]
  · rw [count_at _ _ _ _ _ h1]
    simp only [total, List.map_append, List.count_append, List.map_cons, List.map_nil, hkey]
    omega
  · rw [count_at _ _ _ _ _ h1]
    simp only [total, List.map_append, List.count_append, List.map_cons, List.map_nil, Deliv.key]
    omega

/-- The fields that handing over a message does not change. -/
def Keeps (s s' : St) : Prop :=
  s'.procs = s.procs ∧ s'.slots = s.slots ∧ s'.pending = s.pending ∧ s'.net = s.net ∧ s'.lost = s.lost ∧ s'.ops = s.ops

theorem keeps_incoming {s s' : St} {a r : Nat} {p : Proc} {m : Msg} (h : incomingMessage s a r p m = .ok s') : Keeps s s' := by
  rcases incoming_ok h with ⟨_, rfl⟩ | ⟨_, _, rfl⟩ | ⟨_, f, _, _, rfl⟩ <;> exact ⟨rfl, rfl, rfl, rfl, rfl, rfl⟩

theorem slot_total (s : St) (x : Nat × Nat × Nat) : total (s.slot x) = total s := by
  unfold St.slot
  split <;> rfl

/-- What the loop over the pending messages does. -/
theorem drain_ok {n a r : Nat} {p : Proc} : ∀ (l : List (Nat × Msg)) (s s' : St), drain n a r p s l = .ok s' →
    (total s').Perm (total s ++ l.flatMap oblig) ∧ s'.procs = s.procs ∧ s'.slots = s.slots ∧ s'.net = s.net ∧ s'.lost = s.lost ∧ s'.ops = s.ops ∧
    s'.pending = s.pending ++ l.filter (fun x => !(x.1 == n && x.2.rank == r && x.2.aid == a)) ∧
    (∃ new, s'.log = s.log ++ new ∧ ∀ d ∈ new, d.aid = a ∧ d.rank = r ∧ d.msg.rank = r ∧ d.msg.aid = a ∧ (n, d.msg) ∈ l ∧ d.cq = d.msg.cq ∧ 0 ≤ d.cq ∧
      p.cqs[d.cq.toNat]? = some (some d.handler))
  | [], s, s', h => by
    rw [drain] at h
    cases h
    exact ⟨by simp, rfl, rfl, rfl, rfl, rfl, by simp, [], by simp, by simp⟩
  | (n', m) :: l, s, s', h => by
    rw [drain] at h
    cases ht : m.target with
    | error e => rw [ht] at h; cases h
    | ok t =>
      obtain ⟨hk, rfl⟩ := target_ok ht
      rw [ht] at h
      simp only at h
      split at h
      · next hc =>
        obtain ⟨rfl, hr, ha⟩ := hc
        cases hi : incomingMessage s a r p m with
        | error e => rw [hi] at h; cases h
        | ok s1 =>
          rw [hi] at h
          obtain ⟨p1, p2, p3, p4, p5, p6, p7, new, p8, p9⟩ := drain_ok l s1 s' h
          obtain ⟨k1, k2, k3, k4, k5, k6⟩ := keeps_incoming hi
          refine ⟨?_, p2.trans k1, p3.trans k2, p4.trans k4, p5.trans k5, p6.trans k6, ?_, ?_⟩
          · have ht := total_incoming hi
            rw [List.perm_iff_count] at p1 ht ⊢
            intro e
            have e1 := p1 e
            have e2 := ht e
            rw [List.flatMap_cons, oblig_eq n' m hk, ha, hr]
            simp only [List.count_append] at e1 e2 ⊢
            omega
          · rw [p7, k3, List.filter_cons]
            simp [hr, ha]
          · rcases incoming_ok hi with ⟨_, rfl⟩ | ⟨_, _, rfl⟩ | ⟨hq, f, h0, hf, rfl⟩
            · exact ⟨new, p8, fun d hd => by obtain ⟨q1, q2, q3, q4, q5, q6⟩ := p9 d hd; exact ⟨q1, q2, q3, q4, List.mem_cons_of_mem _ q5, q6⟩⟩
            · exact ⟨new, p8, fun d hd => by obtain ⟨q1, q2, q3, q4, q5, q6⟩ := p9 d hd; exact ⟨q1, q2, q3, q4, List.mem_cons_of_mem _ q5, q6⟩⟩
            · refine ⟨⟨a, r, m.cq, f, m⟩ :: new, by rw [p8]; simp, ?_⟩
              intro d hd
              rw [List.mem_cons] at hd
              rcases hd with rfl | hd
              · exact ⟨rfl, rfl, hr, ha, by simp, rfl, h0, hf⟩
              · obtain ⟨q1, q2, q3, q4, q5, q6⟩ := p9 d hd; exact ⟨q1, q2, q3, q4, List.mem_cons_of_mem _ q5, q6⟩
      · next hc =>
        obtain ⟨p1, p2, p3, p4, p5, p6, p7, new, p8, p9⟩ := drain_ok l _ s' h
        refine ⟨?_, p2, p3, p4, p5, p6, ?_, new, p8, fun d hd => ?_⟩
        · rw [List.perm_iff_count] at p1 ⊢
          intro e
          have e1 := p1 e
          rw [List.flatMap_cons]
          simp only [total, List.count_append, List.flatMap_append, List.flatMap_cons, List.flatMap_nil, List.append_nil] at e1 ⊢
          omega
        · rw [p7, List.filter_cons, if_pos (by simp only [Bool.not_eq_true', Bool.and_eq_false_iff, beq_eq_false_iff_ne]; by_cases h1 : n' = n <;> by_cases h2 : m.rank = r <;> by_cases h3 : m.aid = a <;> simp_all)]
          simp
        · obtain ⟨q1, q2, q3, q4, q5, q6⟩ := p9 d hd
          exact ⟨q1, q2, q3, q4, List.mem_cons_of_mem _ q5, q6⟩

/-! ### The invariant -/

/-- Everything that was asked for is completed, on the way or waits; messages are where they belong. -/
structure Inv (node : Nat → Nat → Nat) (s : St) (ex : List Compl) : Prop where
  perm : (total s).Perm ex
  net : ∀ x ∈ s.net, Wf node x
  pending : ∀ x ∈ s.pending, Wf node x ∧ x.2.kind ≠ .getReq
  log : ∀ d ∈ s.log, WfD node d
  reg : ∀ x ∈ s.pending, s.procs x.2.aid x.2.rank = none
  slots : ∀ x ∈ s.pending, (x.1, x.2.aid, x.2.rank) ∈ s.slots
  slots' : ∀ a r, (s.procs a r).isSome = true → (node a r, a, r) ∈ s.slots

theorem inv_init (node : Nat → Nat → Nat) : Inv node St.init [] := by
  refine ⟨by simp [total, St.init], ?_, ?_, ?_, ?_, ?_, ?_⟩ <;> simp [St.init]

theorem wfd_of {node : Nat → Nat → Nat} {n : Nat} {m : Msg} (h : Wf node (n, m)) (hk : m.kind ≠ .getReq) (cq : Int) (f : Nat) :
    WfD node ⟨m.aid, m.rank, cq, f, m⟩ := by
  intro ha
  have h4 := h.2.2.2
  refine ⟨hk, rfl, ?_⟩
  have hr : m.rank = m.recver := by unfold Msg.rank; rw [if_neg (by simpa using ha)]
  rw [hr]
  refine ⟨rfl, ?_⟩
  simp only at ha ⊢
  cases hk' : m.kind <;> simp only [hk'] at h4 ha hk <;> first | exact absurd rfl hk | exact absurd ha (by decide) | exact ⟨h4.2.1, h4.2.2⟩

theorem mem_slot (s : St) (x y : Nat × Nat × Nat) : y ∈ (s.slot x).slots ↔ y = x ∨ y ∈ s.slots := by
  unfold St.slot
  split
  · next h => exact ⟨.inr, fun h' => h'.elim (fun e => e ▸ h) id⟩
  · simp

theorem slot_rest (s : St) (x : Nat × Nat × Nat) :
    (s.slot x).procs = s.procs ∧ (s.slot x).pending = s.pending ∧ (s.slot x).net = s.net ∧ (s.slot x).log = s.log ∧ (s.slot x).held = s.held ∧
    (s.slot x).lost = s.lost ∧ (s.slot x).ops = s.ops := by
  unfold St.slot
  split <;> exact ⟨rfl, rfl, rfl, rfl, rfl, rfl, rfl⟩

/-- The server. -/
theorem server_inv {node : Nat → Nat → Nat} {s s' : St} {ex : List Compl} {n : Nat} {m : Msg}
    (hp : (total s ++ oblig (n, m)).Perm ex) (hi : Inv node s (total s)) (hw : Wf node (n, m)) (h : server node s n m = .ok s') : Inv node s' ex := by
  unfold server at h
  cases ht : m.target with
  | error e => rw [ht] at h; cases h
  | ok t =>
    obtain ⟨hk, rfl⟩ := target_ok ht
    have hn := wf_node hw hk
    rw [ht] at h
    simp only [← hn, if_true] at h
    have hs := slot_rest s (n, m.aid, m.rank)
    rw [oblig_eq n m hk] at hp
    cases hpr : s.procs m.aid m.rank with
    | none =>
      rw [hpr] at h
      cases h
      refine ⟨?_, ?_, ?_, ?_, ?_, ?_, ?_⟩
      · refine List.Perm.trans ?_ hp
        rw [List.perm_iff_count]
        intro e
        simp only [total, hs, List.flatMap_append, List.flatMap_cons, List.flatMap_nil, List.append_nil, List.count_append, oblig_eq n m hk]
        omega
      · simp only [hs]; exact hi.net
      · simp only [hs]
        intro x hx
        rw [List.mem_append, List.mem_singleton] at hx
        rcases hx with hx | rfl
        · exact hi.pending x hx
        · exact ⟨hw, hk⟩
      · simp only [hs]; exact hi.log
      · simp only [hs]
        intro x hx
        rw [List.mem_append, List.mem_singleton] at hx
        rcases hx with hx | rfl
        · exact hi.reg x hx
        · exact hpr
      · intro x hx
        simp only [hs, List.mem_append, List.mem_singleton] at hx
        simp only [mem_slot]
        rcases hx with hx | rfl
        · exact .inr (hi.slots x hx)
        · exact .inl rfl
      · intro a r har
        simp only [hs] at har
        simp only [mem_slot]
        exact .inr (hi.slots' a r har)
    | some p =>
      rw [hpr] at h
      simp only at h
      obtain ⟨k1, k2, k3, k4, k5, k6⟩ := keeps_incoming h
      refine ⟨?_, ?_, ?_, ?_, ?_, ?_, ?_⟩
      · have := total_incoming h
        rw [slot_total] at this
        exact this.trans hp
      · rw [k4]; simp only [hs]; exact hi.net
      · rw [k3]; simp only [hs]; exact hi.pending
      · rcases incoming_ok h with ⟨_, rfl⟩ | ⟨_, _, rfl⟩ | ⟨_, f, _, _, rfl⟩
        · simp only [hs]; exact hi.log
        · simp only [hs]; exact hi.log
        · simp only [hs]
          intro d hd
          rw [List.mem_append, List.mem_singleton] at hd
          rcases hd with hd | rfl
          · exact hi.log d hd
          · exact wfd_of hw hk _ _
      · rw [k3, k1]; simp only [hs]; exact hi.reg
      · rw [k3, k2]; simp only [hs]; intro x hx; rw [mem_slot]; exact .inr (hi.slots x hx)
      · rw [k1, k2]; simp only [hs]; intro a r har; rw [mem_slot]; exact .inr (hi.slots' a r har)

/-- A new message from process `(a, r)`. -/
def WfNew (node : Nat → Nat → Nat) (a r : Nat) (m : Msg) : Prop :=
  Wf node (m.toNode, m) ∧ m.aid = a ∧ m.kind.isAck = false ∧ m.kind ≠ .getPay ∧ (m.kind = .getReq → m.recver = r) ∧ (m.kind ≠ .getReq → m.sender = r)

/-- What a new message stands for: it and its acknowledgement. -/
def both (m : Msg) : List Compl := at_ m.aid m.recver m.recvCq m.op false ++ at_ m.aid m.sender m.sendCq m.op true

theorem payload_net {node : Nat → Nat → Nat} {x d : Nat} {m : Msg} (hw : Wf node (d, m)) (hk : m.kind = .smsg ∨ m.kind = .posted ∨ m.kind = .getPay ∨ m.kind = .putPay)
    (hx : x = node m.aid m.sender) :
    (∀ y ∈ (if m.wantsAck then [(x, m.ack)] else []) ++ [(d, m)], Wf node y) ∧
    ∀ e, List.count e (((if m.wantsAck then [(x, m.ack)] else []) ++ [(d, m)]).flatMap oblig) = List.count e (both m) := by
  have hpay : m.wantsAck = m.needsAck := by
    unfold Msg.wantsAck
    rcases hk with h | h | h | h <;> rw [h] <;> exact Bool.and_true _
  have hack : oblig (x, m.ack) = at_ m.aid m.sender m.sendCq m.op true := by
    unfold oblig Msg.ack Msg.hwReverse
    rcases hk with h | h | h | h <;> simp only [h]
  have hob : oblig (d, m) = at_ m.aid m.recver m.recvCq m.op false := by
    unfold oblig
    rcases hk with h | h | h | h <;> simp only [h]
  have hwa : Wf node (x, m.ack) := by
    refine ⟨hw.1, hw.2.1, hw.2.2.1, ?_⟩
    unfold Msg.ack Msg.hwReverse
    rcases hk with h | h | h | h <;> simp only [h] <;> exact hx
  rw [hpay, hw.1]
  by_cases hn : m.sendCq = noAck
  · simp only [hn, ne_eq, not_true, decide_false, Bool.false_eq_true, if_false, List.nil_append]
    refine ⟨fun y hy => by rw [List.mem_singleton] at hy; rw [hy]; exact hw, fun e => ?_⟩
    simp only [List.flatMap_cons, List.flatMap_nil, List.append_nil, hob, both]
    rw [hn]
    simp [at_]
  · simp only [hn, ne_eq, not_false_iff, decide_true, if_true]
    refine ⟨fun y hy => ?_, fun e => ?_⟩
    · simp only [List.cons_append, List.nil_append, List.mem_cons, List.not_mem_nil, or_false] at hy
      rcases hy with rfl | rfl
      · exact hwa
      · exact hw
    · simp only [List.cons_append, List.nil_append, List.flatMap_cons, List.flatMap_nil, List.append_nil, hob, hack, both, List.count_append]
      omega

/-- A request that turns into a payload at the node of the sender. -/
theorem toPayload_wf {node : Nat → Nat → Nat} {n : Nat} {m : Msg} (hw : Wf node (n, m)) (hk : m.kind = .getReq) :
    Wf node (m.toPayload.toNode, m.toPayload) ∧ n = node m.aid m.sender ∧ m.toPayload.toNode = node m.aid m.recver := by
  have h4 := hw.2.2.2
  simp only [hk] at h4
  exact ⟨⟨hw.1, hw.2.1, hw.2.2.1, h4.2.2, h4.2.2, h4.2.1⟩, h4.1, h4.2.2⟩

/-- A new message puts itself and its acknowledgement on the way. -/
theorem inject_net {node : Nat → Nat → Nat} {s : St} {a r : Nat} {m : Msg} (hm : WfNew node a r m) (hi : ∀ y ∈ s.net, Wf node y) :
    (∀ y ∈ (inject s (node a r) m).net, Wf node y) ∧
    ∀ e, List.count e ((inject s (node a r) m).net.flatMap oblig) = List.count e (s.net.flatMap oblig) + List.count e (both m) := by
  obtain ⟨hw, ha, hna, hng, h1, h2⟩ := hm
  unfold inject
  by_cases hk : m.kind = .getReq
  · have hr := h1 hk
    by_cases hx : m.toNode = node a r
    · simp only [hx, hk, and_self, if_true]
      obtain ⟨g1, g2, g3⟩ := toPayload_wf hw hk
      have hd : node a r = m.toPayload.toNode := by rw [g3, ha, hr]
      have := payload_net (x := node a r) (d := node a r) (m := m.toPayload) (by rw [hd]; exact g1) (.inr (.inr (.inl rfl))) (by rw [← hx, g2]; rfl)
      refine ⟨fun y hy => ?_, fun e => ?_⟩
      · rw [List.append_assoc, List.mem_append] at hy
        rcases hy with hy | hy
        · exact hi y hy
        · exact this.1 y hy
      · rw [List.append_assoc, List.flatMap_append, List.count_append, this.2 e]
        rfl
    · simp only [hx, false_and, if_false]
      have hna : m.wantsAck = false := by unfold Msg.wantsAck; rw [hk]; exact Bool.and_false _
      simp only [hna, Bool.false_eq_true, if_false, List.append_nil]
      refine ⟨fun y hy => ?_, fun e => ?_⟩
      · rw [List.mem_append, List.mem_singleton] at hy
        rcases hy with hy | rfl
        · exact hi y hy
        · exact hw
      · rw [List.flatMap_append, List.count_append]
        simp only [List.flatMap_cons, List.flatMap_nil, List.append_nil, oblig, hk, both]
  · have hs := h2 hk
    simp only [hk, and_false, if_false]
    have := payload_net (x := node a r) hw (by cases hk' : m.kind <;> simp_all [Kind.isAck]) (by rw [ha, hs])
    refine ⟨fun y hy => ?_, fun e => ?_⟩
    · rw [List.append_assoc, List.mem_append] at hy
      rcases hy with hy | hy
      · exact hi y hy
      · exact this.1 y hy
    · rw [List.append_assoc, List.flatMap_append, List.count_append, this.2 e]

theorem inject_inv {node : Nat → Nat → Nat} {s : St} {ex : List Compl} {a r : Nat} {m : Msg} (hm : WfNew node a r m)
    (hp : (total s ++ both m).Perm ex) (hi : Inv node s (total s)) : Inv node (inject s (node a r) m) ex := by
  have key := inject_net hm hi.net
  refine ⟨?_, key.1, hi.pending, hi.log, hi.reg, hi.slots, hi.slots'⟩
  refine List.Perm.trans ?_ hp
  rw [List.perm_iff_count]
  intro e
  have := key.2 e
  have hrest : (inject s (node a r) m).log = s.log ∧ (inject s (node a r) m).pending = s.pending ∧ (inject s (node a r) m).held = s.held ∧ (inject s (node a r) m).lost = s.lost :=
    ⟨rfl, rfl, rfl, rfl⟩
  simp only [total, hrest, List.count_append] at this ⊢
  omega

/-- A call of a queue function by the process itself. -/
theorem call_inv {node : Nat → Nat → Nat} {s s' : St} {a r : Nat} {p : Proc} {cq : Int} {m : Msg} (hi : Inv node s (total s))
    (hd : ∀ f, WfD node ⟨a, r, cq, f, m⟩) (h : call s a r p cq m = .ok s') :
    Inv node s' (total s') ∧ (total s').Perm (total s ++ [⟨a, r, cq, m.op, m.kind.isAck⟩]) := by
  obtain ⟨f, _, _, rfl⟩ := call_ok h
  refine ⟨⟨List.Perm.refl _, hi.net, hi.pending, ?_, hi.reg, hi.slots, hi.slots'⟩, ?_⟩
  · intro d hd'
    rw [List.mem_append, List.mem_singleton] at hd'
    rcases hd' with hd' | rfl
    · exact hi.log d hd'
    · exact hd f
  · rw [List.perm_iff_count]
    intro e
    simp only [total, List.map_append, List.count_append, List.map_cons, List.map_nil, Deliv.key]
    omega

theorem send_inv {node : Nat → Nat → Nat} {s s' : St} {ex : List Compl} {a r : Nat} {p : Proc} {m : Msg} (hm : WfNew node a r m)
    (hp : (total s ++ both m).Perm ex) (hi : Inv node s (total s)) (h : send node s a r p m = .ok s') : Inv node s' ex := by
  unfold send at h
  split at h
  · next hself =>
    obtain ⟨hk, hr⟩ := hself
    obtain ⟨hw, ha, _, _, _, h2⟩ := hm
    have hs : m.sender = r := h2 (by rw [hk]; decide)
    have hsc := hw.2.1
    have hrc := hw.2.2.1
    simp only at hsc hrc
    have hfin : ∀ s1 : St, Inv node s1 (total s1) → (total s1).Perm (total s ++ at_ m.aid m.recver m.recvCq m.op false) →
        (if 0 ≤ m.sendCq then call s1 a r p m.sendCq m.ack else .ok s1) = .ok s' → Inv node s' ex := by
      intro s1 hi1 hp1 h1
      split at h1
      · next h0 =>
        have hne : m.sendCq ≠ noAck := by unfold noAck; omega
        have hak : m.ack.kind = .sentAck := by unfold Msg.ack; rw [hk]
        obtain ⟨g1, g2⟩ := call_inv hi1 (fun f hf => by rw [hak] at hf; cases hf) h1
        refine ⟨?_, g1.net, g1.pending, g1.log, g1.reg, g1.slots, g1.slots'⟩
        refine g2.trans (List.Perm.trans ?_ hp)
        rw [List.perm_iff_count] at hp1 ⊢
        intro e
        have := hp1 e
        unfold both
        rw [count_at _ _ m.sendCq _ _ hne, hak, ha, hs]
        rw [ha] at this
        simp only [List.count_append] at this ⊢
        have ho : m.ack.op = m.op := rfl
        rw [ho]
        simp only [Kind.isAck]
        omega
      · next h0 =>
        have hne : m.sendCq = noAck := by unfold noAck; omega
        cases h1
        refine ⟨?_, hi1.net, hi1.pending, hi1.log, hi1.reg, hi1.slots, hi1.slots'⟩
        refine hp1.trans (List.Perm.trans ?_ hp)
        unfold both
        rw [hne]
        simp [at_]
    by_cases h0 : 0 ≤ m.recvCq
    · rw [if_pos h0] at h
      cases hc : call s a r p m.recvCq m with
      | error e => rw [hc] at h; cases h
      | ok s1 =>
        rw [hc] at h
        have hne : m.recvCq ≠ noAck := by unfold noAck; omega
        have h4 := hw.2.2.2
        simp only [hk] at h4
        obtain ⟨g1, g2⟩ := call_inv hi (fun f hf => by
          refine ⟨by rw [hk]; decide, ha, hr, ?_, ?_⟩
          · have := h4.2.1; rw [ha, hr] at this; exact this
          · have := h4.2.2; rw [ha] at this; exact this) hc
        refine hfin s1 g1 ?_ h
        rw [count_at _ _ _ _ _ hne, ha, hr]
        have hkk : m.kind.isAck = false := by rw [hk]; rfl
        rw [hkk] at g2
        exact g2
    · rw [if_neg h0] at h
      have hne : m.recvCq = noAck := by unfold noAck; omega
      refine hfin s hi ?_ h
      rw [hne]
      simp [at_]
  · cases h
    exact inject_inv hm hp hi

theorem getElem?_perm {α : Type} {l : List α} {i : Nat} {x : α} (h : l[i]? = some x) : (x :: l.eraseIdx i).Perm l := by
  induction l generalizing i with
  | nil => simp at h
  | cons y l ih =>
    cases i with
    | zero =>
      rw [List.getElem?_cons_zero] at h
      cases h
      exact List.Perm.refl _
    | succ i =>
      rw [List.getElem?_cons_succ] at h
      rw [List.eraseIdx_cons_succ]
      exact (List.Perm.swap y x _).trans ((ih h).cons y)

theorem received_wf {node : Nat → Nat → Nat} {s : St} {ex : List Compl} (hi : Inv node s ex) {a r : Nat} {m : Msg} (h : received s a r m = true) :
    m.kind.isAck = false ∧ m.kind ≠ .getReq ∧ m.aid = a ∧ m.recver = r ∧ m.toNode = node a r ∧ m.fromNode = node a m.sender := by
  unfold received at h
  rw [Bool.and_eq_true, List.any_eq_true] at h
  obtain ⟨h1, d, hd, h2⟩ := h
  simp only [Bool.and_eq_true, beq_iff_eq] at h2
  obtain ⟨⟨e1, e2⟩, e3⟩ := h2
  have hk : m.kind.isAck = false := by simpa using h1
  have := hi.log d hd (by rw [e3]; exact hk)
  rw [e1, e2, e3] at this
  exact ⟨hk, this⟩

/-- Each step keeps the account. -/
theorem step_inv {node : Nat → Nat → Nat} {s s' : St} {ex : List Compl} (hi : Inv node s ex) (op : Op) (hq : op.queuesOk) (hg : op.noGet)
    (h : step node s op = .ok s') : Inv node s' (ex ++ op.expects s.ops) ∧ s'.ops = if op.comm then s.ops + 1 else s.ops := by
  have hi0 : Inv node s (total s) := ⟨List.Perm.refl _, hi.net, hi.pending, hi.log, hi.reg, hi.slots, hi.slots'⟩
  -- communication calls
  have comm : ∀ (a r : Nat) (p : Proc) (m : Msg), WfNew node a r m → (both m).Perm (op.expects s.ops) →
      send node { s with ops := s.ops + 1 } a r p m = .ok s' → Inv node s' (ex ++ op.expects s.ops) ∧ s'.ops = s.ops + 1 := by
    intro a r p m hm hb hs
    refine ⟨send_inv hm ?_ (s := { s with ops := s.ops + 1 }) ⟨List.Perm.refl _, hi.net, hi.pending, hi.log, hi.reg, hi.slots, hi.slots'⟩ hs, ?_⟩
    · exact List.Perm.append hi.perm hb
    · unfold send at hs
      split at hs
      · by_cases h0 : 0 ≤ m.recvCq
        · rw [if_pos h0] at hs
          cases hc : call { s with ops := s.ops + 1 } a r p m.recvCq m with
          | error e => rw [hc] at hs; cases hs
          | ok s1 =>
            rw [hc] at hs
            obtain ⟨f, _, _, rfl⟩ := call_ok hc
            replace hs : (if 0 ≤ m.sendCq then call _ a r p m.sendCq m.ack else .ok _) = .ok s' := hs
            split at hs
            · obtain ⟨f', _, _, rfl⟩ := call_ok hs; rfl
            · cases hs; rfl
        · rw [if_neg h0] at hs
          replace hs : (if 0 ≤ m.sendCq then call _ a r p m.sendCq m.ack else .ok _) = .ok s' := hs
          split at hs
          · obtain ⟨f', _, _, rfl⟩ := call_ok hs; rfl
          · cases hs; rfl
      · cases hs; rfl
  cases op with
  | start a r =>
    simp only [step] at h
    cases hp : s.procs a r with
    | some p => rw [hp] at h; cases h
    | none =>
      rw [hp] at h
      simp only at h
      obtain ⟨p1, p2, p3, p4, p5, p6, p7, new, p8, p9⟩ := drain_ok _ _ _ h
      have hs := slot_rest { s.set a r (some ⟨[some defaultFn], []⟩) with pending := [] } (node a r, a, r)
      simp only [hs] at p2 p4 p5 p6 p7 p8
      have hpend : ∀ x ∈ s'.pending, x ∈ s.pending ∧ ¬ (x.2.rank = r ∧ x.2.aid = a) := by
        intro x hx
        rw [p7, List.nil_append, List.mem_filter] at hx
        refine ⟨hx.1, fun hc => ?_⟩
        have hn : x.1 = node a r := by
          have := wf_node (hi.pending x hx.1).1 (hi.pending x hx.1).2
          rw [hc.1, hc.2] at this
          exact this
        simp [hn, hc.1, hc.2] at hx
      refine ⟨⟨?_, ?_, ?_, ?_, ?_, ?_, ?_⟩, p6⟩
      · show (total s').Perm (ex ++ [])
        rw [List.append_nil]
        refine p1.trans (List.Perm.trans ?_ hi.perm)
        rw [slot_total, List.perm_iff_count]
        intro e
        simp only [total, St.set, List.count_append, List.flatMap_nil, List.count_nil]
        omega
      · rw [p4]; exact hi.net
      · intro x hx; exact hi.pending x (hpend x hx).1
      · rw [p8]
        intro d hd
        rw [List.mem_append] at hd
        rcases hd with hd | hd
        · exact hi.log d hd
        · obtain ⟨q1, q2, q3, q4, q5, q6, q7, q8⟩ := p9 d hd
          have := wfd_of (hi.pending _ q5).1 (hi.pending _ q5).2 d.cq d.handler
          simp only [q3, q4] at this
          have hd' : d = ⟨a, r, d.cq, d.handler, d.msg⟩ := by rw [← q1, ← q2]
          rw [hd']
          exact this
      · intro x hx
        rw [p2]
        obtain ⟨g1, g2⟩ := hpend x hx
        simp only [St.set]
        rw [if_neg (fun hc => g2 ⟨hc.2, hc.1⟩)]
        exact hi.reg x g1
      · intro x hx
        rw [p3, mem_slot]
        exact .inr (hi.slots x (hpend x hx).1)
      · intro a' r' h'
        rw [p3, mem_slot]
        rw [p2] at h'
        simp only [St.set] at h'
        split at h'
        · next hc => rw [hc.1, hc.2]; exact .inl rfl
        · exact .inr (hi.slots' a' r' h')
  | finish a r =>
    simp only [step] at h
    cases hp : s.procs a r with
    | none => rw [hp] at h; cases h
    | some p =>
      rw [hp] at h
      cases h
      refine ⟨⟨?_, hi.net, hi.pending, hi.log, ?_, ?_, ?_⟩, rfl⟩
      · show (total _).Perm (ex ++ [])
        rw [List.append_nil]
        refine List.Perm.trans ?_ hi.perm
        rw [List.perm_iff_count]
        intro e
        have := List.perm_iff_count.1 ((List.filter_append_perm (fun x : Nat × Nat × Int × Msg => x.1 == a && x.2.1 == r) s.held).map hkey) e
        simp only [List.map_append, List.count_append] at this
        simp only [total, St.set, List.count_append, List.map_append]
        omega
      · intro x hx
        simp only [St.set]
        split
        · rfl
        · exact hi.reg x hx
      · intro x hx
        simp only [List.mem_filter]
        refine ⟨hi.slots x hx, ?_⟩
        have hne : ¬ (x.2.aid = a ∧ x.2.rank = r) := by
          intro hc
          have := hi.reg x hx
          rw [hc.1, hc.2, hp] at this
          cases this
        simp only [bne_iff_ne, ne_eq, Prod.mk.injEq]
        exact fun hc => hne hc.2
      · intro a' r' h'
        simp only [St.set] at h'
        split at h'
        · cases h'
        · next hc =>
          simp only [List.mem_filter]
          refine ⟨hi.slots' a' r' h', ?_⟩
          simp only [bne_iff_ne, ne_eq, Prod.mk.injEq]
          exact fun hc' => hc hc'.2
  | allocId a r =>
    simp only [step] at h
    cases hp : s.procs a r with
    | none => rw [hp] at h; cases h
    | some p =>
      rw [hp] at h
      have key : ∀ p' : Proc, Inv node (s.set a r (some p')) (ex ++ []) := by
        intro p'
        rw [List.append_nil]
        refine ⟨hi.perm, hi.net, hi.pending, hi.log, ?_, hi.slots, ?_⟩
        · intro x hx
          have h1 := hi.reg x hx
          simp only [St.set]
          rw [if_neg (fun hc => by rw [hc.1, hc.2, hp] at h1; cases h1)]
          exact h1
        · intro a' r' h'
          simp only [St.set] at h'
          split at h'
          · next hc => rw [hc.1, hc.2]; exact hi.slots' a r (by rw [hp]; rfl)
          · exact hi.slots' a' r' h'
      simp only at h
      split at h <;> cases h <;> exact ⟨key _, rfl⟩
  | install a r id f =>
    simp only [step] at h
    cases hp : s.procs a r with
    | none => rw [hp] at h; cases h
    | some p =>
      rw [hp] at h
      simp only at h
      split at h
      · cases h
      · split at h
        · cases h
        · cases h
          refine ⟨?_, rfl⟩
          show Inv node _ (ex ++ [])
          rw [List.append_nil]
          refine ⟨hi.perm, hi.net, hi.pending, hi.log, ?_, hi.slots, ?_⟩
          · intro x hx
            have h1 := hi.reg x hx
            simp only [St.set]
            rw [if_neg (fun hc => by rw [hc.1, hc.2, hp] at h1; cases h1)]
            exact h1
          · intro a' r' h'
            simp only [St.set] at h'
            split at h'
            · next hc => rw [hc.1, hc.2]; exact hi.slots' a r (by rw [hp]; rfl)
            · exact hi.slots' a' r' h'
  | dealloc a r id =>
    simp only [step] at h
    cases hp : s.procs a r with
    | none => rw [hp] at h; cases h
    | some p =>
      rw [hp] at h
      cases h
      refine ⟨?_, rfl⟩
      show Inv node _ (ex ++ [])
      rw [List.append_nil]
      refine ⟨hi.perm, hi.net, hi.pending, hi.log, ?_, hi.slots, ?_⟩
      · intro x hx
        have h1 := hi.reg x hx
        simp only [St.set]
        rw [if_neg (fun hc => by rw [hc.1, hc.2, hp] at h1; cases h1)]
        exact h1
      · intro a' r' h'
        simp only [St.set] at h'
        split at h'
        · next hc => rw [hc.1, hc.2]; exact hi.slots' a r (by rw [hp]; rfl)
        · exact hi.slots' a' r' h'
  | smsg a r q lcq rcq =>
    simp only [step] at h
    cases hp : s.procs a r with
    | none => rw [hp] at h; cases h
    | some p =>
      rw [hp] at h
      exact comm a r p (fresh node s .smsg a r q lcq rcq) ⟨⟨rfl, hq.1, hq.2, rfl, rfl, rfl⟩, rfl, rfl, (by simp [fresh]), (by simp [fresh]), fun _ => rfl⟩ (List.Perm.refl _) h
  | post a r q lcq rcq =>
    simp only [step] at h
    cases hp : s.procs a r with
    | none => rw [hp] at h; cases h
    | some p =>
      rw [hp] at h
      exact comm a r p (fresh node s .posted a r q lcq rcq) ⟨⟨rfl, hq.1, hq.2, rfl, rfl, rfl⟩, rfl, rfl, (by simp [fresh]), (by simp [fresh]), fun _ => rfl⟩ (List.Perm.refl _) h
  | put a r q lcq rcq =>
    simp only [step] at h
    cases hp : s.procs a r with
    | none => rw [hp] at h; cases h
    | some p =>
      rw [hp] at h
      exact comm a r p (fresh node s .putPay a r q lcq rcq) ⟨⟨rfl, hq.1, hq.2, rfl, rfl, rfl⟩, rfl, rfl, (by simp [fresh]), (by simp [fresh]), fun _ => rfl⟩ (List.Perm.refl _) h
  | get a r q lcq rcq =>
    simp only [step] at h
    cases hp : s.procs a r with
    | none => rw [hp] at h; cases h
    | some p =>
      rw [hp] at h
      have hqr : q = r := hg
      subst hqr
      exact comm a q p (fresh node s .getReq a q q rcq lcq) ⟨⟨rfl, hq.2, hq.1, rfl, rfl, rfl⟩, rfl, rfl, (by simp [fresh]), (fun _ => rfl), fun _ => rfl⟩ (List.Perm.refl _) h
  | smsgResp a r m lcq rcq =>
    simp only [step] at h
    cases hp : s.procs a r with
    | none => rw [hp] at h; cases h
    | some p =>
      rw [hp] at h
      simp only at h
      split at h
      · next hr =>
        obtain ⟨g1, g2, g3, g4, g5, g6⟩ := received_wf hi hr
        refine comm a r p _ ?_ ?_ h
        · refine ⟨⟨rfl, hq.1, hq.2, ?_⟩, g3, rfl, (by simp), (by simp), fun _ => g4⟩
          simp only [Msg.swReverse, Msg.hwReverse]
          rw [g3, g4]
          exact ⟨g6, g6, g5⟩
        · unfold both
          simp only [Msg.swReverse, Msg.hwReverse, Op.expects, g3, g4]
          exact List.Perm.refl _
      · cases h
  | putResp a r m lcq rcq =>
    simp only [step] at h
    cases hp : s.procs a r with
    | none => rw [hp] at h; cases h
    | some p =>
      rw [hp] at h
      simp only at h
      split at h
      · next hr =>
        obtain ⟨g1, g2, g3, g4, g5, g6⟩ := received_wf hi hr
        refine comm a r p _ ?_ ?_ h
        · refine ⟨⟨rfl, hq.1, hq.2, ?_⟩, g3, rfl, (by simp), (by simp), fun _ => g4⟩
          simp only [Msg.swReverse, Msg.hwReverse]
          rw [g3, g4]
          exact ⟨g6, g6, g5⟩
        · unfold both
          simp only [Msg.swReverse, Msg.hwReverse, Op.expects, g3, g4]
          exact List.Perm.refl _
      · cases h
  | getResp a r m lcq rcq =>
    simp only [step] at h
    cases hp : s.procs a r with
    | none => rw [hp] at h; cases h
    | some p =>
      rw [hp] at h
      simp only at h
      split at h
      · next hr =>
        obtain ⟨g1, g2, g3, g4, g5, g6⟩ := received_wf hi hr
        refine comm a r p _ ?_ ?_ h
        · refine ⟨⟨rfl, hq.2, hq.1, ?_⟩, g3, rfl, (by simp), (fun _ => g4), (by simp)⟩
          simp only [Msg.hwReverse]
          rw [g3, g4]
          exact ⟨g6, g6, g5⟩
        · unfold both
          simp only [Msg.hwReverse, Op.expects, g3, g4]
          exact List.Perm.refl _
      · cases h
  | arrive i =>
    simp only [step] at h
    cases hn : s.net[i]? with
    | none => rw [hn] at h; cases h
    | some x =>
      obtain ⟨n, m⟩ := x
      rw [hn] at h
      simp only at h
      have hperm := getElem?_perm hn
      have hw : Wf node (n, m) := hi.net _ (List.mem_of_getElem? hn)
      have hsub : ∀ x ∈ s.net.eraseIdx i, Wf node x := fun x hx => hi.net x (List.mem_of_mem_eraseIdx hx)
      have hcount : ∀ e, List.count e (oblig (n, m)) + List.count e ((s.net.eraseIdx i).flatMap oblig) = List.count e (s.net.flatMap oblig) := by
        intro e
        have := List.perm_iff_count.1 (hperm.flatMap_right oblig) e
        rw [List.flatMap_cons, List.count_append] at this
        exact this
      split at h
      · next hk =>
        cases h
        obtain ⟨g1, g2, g3⟩ := toPayload_wf hw hk
        have hpn := payload_net (x := n) g1 (.inr (.inr (.inl rfl))) g2
        refine ⟨⟨?_, ?_, hi.pending, hi.log, hi.reg, hi.slots, hi.slots'⟩, rfl⟩
        · show (total _).Perm (ex ++ [])
          rw [List.append_nil]
          refine List.Perm.trans ?_ hi.perm
          rw [List.perm_iff_count]
          intro e
          have h1 := hpn.2 e
          have h2 := hcount e
          have h3 : List.count e (both m.toPayload) = List.count e (oblig (n, m)) := by
            unfold oblig
            simp only [hk]
            rfl
          simp only [total, List.append_assoc, List.flatMap_append, List.count_append] at h1 ⊢
          omega
        · intro x hx
          simp only [List.append_assoc, List.mem_append] at hx
          rcases hx with hx | hx
          · exact hsub x hx
          · exact hpn.1 x (List.mem_append.2 hx)
      · next hk =>
        have hops : s'.ops = s.ops := by
          unfold server at h
          cases ht : m.target with
          | error e => rw [ht] at h; cases h
          | ok t =>
            rw [ht] at h
            simp only at h
            split at h
            · rw [(keeps_incoming h).2.2.2.2.2, (slot_rest _ _).2.2.2.2.2.2]
            · cases h; exact (slot_rest _ _).2.2.2.2.2.2
        refine ⟨?_, hops⟩
        show Inv node s' (ex ++ [])
        rw [List.append_nil]
        refine server_inv (s := { s with net := s.net.eraseIdx i }) ?_ ⟨List.Perm.refl _, hsub, hi.pending, hi.log, hi.reg, hi.slots, hi.slots'⟩ hw h
        refine List.Perm.trans ?_ hi.perm
        rw [List.perm_iff_count]
        intro e
        have := hcount e
        simp only [total, List.count_append]
        omega

theorem run_inv {node : Nat → Nat → Nat} : ∀ (ops : List Op) (s s' : St) (ex : List Compl), Inv node s ex → (∀ op ∈ ops, op.queuesOk ∧ op.noGet) →
    run node s ops = .ok s' → Inv node s' (ex ++ expected s.ops ops)
  | [], s, s', ex, hi, _, h => by
    rw [run] at h
    cases h
    show Inv node s (ex ++ [])
    rw [List.append_nil]
    exact hi
  | op :: ops, s, s', ex, hi, hq, h => by
    rw [run] at h
    cases hs : step node s op with
    | error e => rw [hs] at h; cases h
    | ok s1 =>
      rw [hs] at h
      obtain ⟨h1, h2⟩ := step_inv hi op (hq op (by simp)).1 (hq op (by simp)).2 hs
      have := run_inv ops s1 s' _ h1 (fun o ho => hq o (by simp [ho])) h
      rw [h2, List.append_assoc] at this
      exact this

end SST.Sumi.Tp
