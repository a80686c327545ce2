import Verif.Sumi.TransportLemmas
/-! C121: the calls of the transport complete on the queues that they name. -/
set_option autoImplicit false
namespace SST.Sumi.Tp

/-- In every run that does not fail and in which `rdmaGet` is not used on other processes, what the calls have to
lead to is, counted with multiplicity, exactly what was given to the queues and what is on the way, waits
for its process or its queue, or was held by a process that ended. -/
theorem C121_conserved (node : Nat → Nat → Nat) (ops : List Op) (s : St) (hq : ∀ op ∈ ops, op.queuesOk ∧ op.noGet)
    (h : run node St.init ops = .ok s) :
    (s.log.map Deliv.key ++ (s.net.flatMap oblig ++ (s.pending.flatMap oblig ++ (s.held.map hkey ++ s.lost.map hkey)))).Perm (expected 0 ops) :=
  (run_inv ops _ _ [] (inv_init node) hq h).perm

/-- Once nothing is on the way and nothing waits, every completion has happened exactly once, at the process and on
the queue that the call named, and nothing else has. -/
theorem C121_complete (node : Nat → Nat → Nat) (ops : List Op) (s : St) (hq : ∀ op ∈ ops, op.queuesOk ∧ op.noGet)
    (h : run node St.init ops = .ok s) (hn : s.net = []) (hp : s.pending = []) (hh : s.held = []) (hl : s.lost = []) :
    (s.log.map Deliv.key).Perm (expected 0 ops) := by
  have := C121_conserved node ops s hq h
  rw [hn, hp, hh, hl] at this
  simpa using this

/-- Two processes on two nodes exchange a message and an answer that is a get. -/
def demo : List Op :=
  [.start 0 0, .start 0 1, .smsg 0 0 1 0 0, .arrive 1,
   .getResp 0 1 ⟨.smsg, 0, 0, 1, 0, 0, true, 1, 0, 0⟩ 0 0, .arrive 0, .arrive 0, .arrive 1, .arrive 0]

example : (run (fun _ r => r) St.init demo).toOption.map (fun s => (s.net.length, s.pending.length, s.held.length, s.lost.length, s.log.map Deliv.key)) =
    some (0, 0, 0, 0, [⟨0, 1, 0, 0, false⟩, ⟨0, 0, 0, 0, true⟩, ⟨0, 1, 0, 1, false⟩, ⟨0, 0, 0, 1, true⟩]) := by decide
example : expected 0 demo = [⟨0, 1, 0, 0, false⟩, ⟨0, 0, 0, 0, true⟩, ⟨0, 1, 0, 1, false⟩, ⟨0, 0, 0, 1, true⟩] := by decide
example : ∀ op ∈ demo, op.queuesOk ∧ op.noGet := by
  intro op hop
  simp only [demo, List.mem_cons, List.not_mem_nil, or_false] at hop
  rcases hop with rfl | rfl | rfl | rfl | rfl | rfl | rfl | rfl | rfl <;> simp [Op.queuesOk, Op.noGet]

/-- Nothing waits at a node for a process that is registered there, and the entry of the server that a
waiting message belongs to exists: the server is not deleted while messages wait. -/
theorem C121_server (node : Nat → Nat → Nat) (ops : List Op) (s : St) (hq : ∀ op ∈ ops, op.queuesOk ∧ op.noGet)
    (h : run node St.init ops = .ok s) : ∀ x ∈ s.pending,
      s.procs x.2.aid x.2.rank = none ∧ (x.1, x.2.aid, x.2.rank) ∈ s.slots ∧ x.1 = node x.2.aid x.2.rank := by
  intro x hx
  have hi := run_inv ops _ _ [] (inv_init node) hq h
  exact ⟨hi.reg x hx, hi.slots x hx, wf_node (hi.pending x hx).1 (hi.pending x hx).2⟩

example : (run (fun _ r => r) St.init [.start 0 0, .smsg 0 0 1 0 0, .arrive 1]).toOption.map (fun s => (s.pending.length, s.slots)) =
    some (1, [(1, 0, 1), (0, 0, 0)]) := by decide

/-! ### Functions of queues -/

/-- The functions of the queues after a history: a process begins with that of queue 0. -/
def fnStep (f : Nat → Nat → Nat → Option Nat) : Op → Nat → Nat → Nat → Option Nat
  | .start a r => fun a' r' c => if a' = a ∧ r' = r then (if c = 0 then some defaultFn else none) else f a' r' c
  | .finish a r => fun a' r' c => if a' = a ∧ r' = r then none else f a' r' c
  | .install a r id h => fun a' r' c => if a' = a ∧ r' = r ∧ c = id then some h else f a' r' c
  | _ => f

/-- The functions after a history. -/
def fns (ops : List Op) : Nat → Nat → Nat → Option Nat := ops.foldl fnStep (fun _ _ _ => none)

/-- The function of a queue in the state. -/
def St.fn (s : St) (a r c : Nat) : Option Nat := match s.procs a r with
  | none => none
  | some p => match p.cqs[c]? with
    | some (some f) => some f
    | _ => none

theorem fn_some {s : St} {a r c f : Nat} : s.fn a r c = some f ↔ ∃ p, s.procs a r = some p ∧ p.cqs[c]? = some (some f) := by
  unfold St.fn
  cases hp : s.procs a r with
  | none => simp
  | some p =>
    simp only [Option.some.injEq, exists_eq_left']
    cases hc : p.cqs[c]? with
    | none => simp
    | some o => cases o <;> simp

theorem fn_congr {s s' : St} (h : s'.procs = s.procs) : s'.fn = s.fn := by
  funext a r c
  unfold St.fn
  rw [h]

/-- Sends change no queue, and what they give is given to the function of the queue. -/
theorem send_log {node : Nat → Nat → Nat} {s s' : St} {a r : Nat} {p : Proc} {m : Msg} (hp : s.procs a r = some p) (h : send node s a r p m = .ok s') :
    s'.procs = s.procs ∧ ∃ new, s'.log = s.log ++ new ∧ ∀ d ∈ new, 0 ≤ d.cq ∧ s.fn d.aid d.rank d.cq.toNat = some d.handler := by
  unfold send at h
  split at h
  · by_cases h0 : 0 ≤ m.recvCq
    · rw [if_pos h0] at h
      cases hc : call s a r p m.recvCq m with
      | error e => rw [hc] at h; cases h
      | ok s1 =>
        rw [hc] at h
        obtain ⟨f, hz, hf, rfl⟩ := call_ok hc
        replace h : (if 0 ≤ m.sendCq then call _ a r p m.sendCq m.ack else .ok _) = .ok s' := h
        split at h
        · obtain ⟨f', hz', hf', rfl⟩ := call_ok h
          refine ⟨rfl, [_, _], by rw [List.append_assoc]; rfl, ?_⟩
          intro d hd
          simp only [List.mem_cons, List.not_mem_nil, or_false] at hd
          rcases hd with rfl | rfl
          · exact ⟨hz, fn_some.2 ⟨p, hp, hf⟩⟩
          · exact ⟨hz', fn_some.2 ⟨p, hp, hf'⟩⟩
        · cases h
          refine ⟨rfl, [_], rfl, ?_⟩
          intro d hd
          rw [List.mem_singleton] at hd
          rw [hd]
          exact ⟨hz, fn_some.2 ⟨p, hp, hf⟩⟩
    · rw [if_neg h0] at h
      replace h : (if 0 ≤ m.sendCq then call _ a r p m.sendCq m.ack else .ok _) = .ok s' := h
      split at h
      · obtain ⟨f', hz', hf', rfl⟩ := call_ok h
        refine ⟨rfl, [_], rfl, ?_⟩
        intro d hd
        rw [List.mem_singleton] at hd
        rw [hd]
        exact ⟨hz', fn_some.2 ⟨p, hp, hf'⟩⟩
      · cases h
        exact ⟨rfl, [], by simp, by simp⟩
  · cases h
    exact ⟨rfl, [], by simp [inject], by simp⟩

theorem set_fn (s : St) (a r : Nat) (o : Option Proc) (a' r' c : Nat) :
    (s.set a r o).fn a' r' c = if a' = a ∧ r' = r then (match o with
      | none => none
      | some p => match p.cqs[c]? with
        | some (some f) => some f
        | _ => none) else s.fn a' r' c := by
  by_cases hc : a' = a ∧ r' = r
  · simp only [St.fn, St.set, if_pos hc]
  · simp only [St.fn, St.set, if_neg hc]

/-- Steps change the functions as the history says, and call those. -/
theorem step_fn {node : Nat → Nat → Nat} {s s' : St} (op : Op) (h : step node s op = .ok s') :
    s'.fn = fnStep s.fn op ∧ ∃ new, s'.log = s.log ++ new ∧ ∀ d ∈ new, 0 ≤ d.cq ∧ s'.fn d.aid d.rank d.cq.toNat = some d.handler := by
  have comm : ∀ (a r : Nat) (p : Proc) (m : Msg), s.procs a r = some p → send node { s with ops := s.ops + 1 } a r p m = .ok s' →
      s'.fn = s.fn ∧ ∃ new, s'.log = s.log ++ new ∧ ∀ d ∈ new, 0 ≤ d.cq ∧ s'.fn d.aid d.rank d.cq.toNat = some d.handler := by
    intro a r p m hp hs
    obtain ⟨h1, new, h2, h3⟩ := send_log (s := { s with ops := s.ops + 1 }) hp hs
    have : s'.fn = s.fn := (fn_congr h1).trans rfl
    refine ⟨this, new, h2, fun d hd => ?_⟩
    rw [this]
    exact h3 d hd
  cases op with
  | start a r =>
    simp only [step] at h
    cases hp : s.procs a r with
    | some p => rw [hp] at h; cases h
    | none =>
      rw [hp] at h
      simp only at h
      obtain ⟨p1, p2, p3, p4, p5, p6, p7, new, p8, p9⟩ := drain_ok _ _ _ h
      have hs := slot_rest { s.set a r (some ⟨[some defaultFn], []⟩) with pending := [] } (node a r, a, r)
      simp only [hs] at p2 p8
      have hf : s'.fn = (s.set a r (some ⟨[some defaultFn], []⟩)).fn := fn_congr p2
      refine ⟨?_, new, p8, fun d hd => ?_⟩
      · rw [hf]
        funext a' r' c
        rw [set_fn]
        simp only [fnStep]
        split
        · cases c <;> simp
        · rfl
      · obtain ⟨q1, q2, q3, q4, q5, q6, q7, q8⟩ := p9 d hd
        refine ⟨q7, ?_⟩
        rw [hf, set_fn, if_pos ⟨q1, q2⟩]
        simp only [q8]
  | finish a r =>
    simp only [step] at h
    cases hp : s.procs a r with
    | none => rw [hp] at h; cases h
    | some p =>
      rw [hp] at h
      cases h
      refine ⟨?_, [], by simp [St.set], by simp⟩
      funext a' r' c
      refine (congrFun (congrFun (congrFun (fn_congr (s := s.set a r none) rfl) a') r') c).trans ?_
      rw [set_fn]
      rfl
  | allocId a r =>
    simp only [step] at h
    cases hp : s.procs a r with
    | none => rw [hp] at h; cases h
    | some p =>
      rw [hp] at h
      have key : ∀ p' : Proc, (∀ c f : Nat, p'.cqs[c]? = some (some f) ↔ p.cqs[c]? = some (some f)) → (s.set a r (some p')).fn = s.fn := by
        intro p' hp'
        funext a' r' c
        apply Option.ext
        intro f
        rw [fn_some, fn_some]
        simp only [St.set]
        split
        · next hc =>
          rw [hc.1, hc.2, hp]
          simp only [Option.some.injEq, exists_eq_left']
          exact hp' c f
        · exact Iff.rfl
      simp only at h
      split at h
      · cases h
        refine ⟨key _ ?_, [], by simp [St.set], by simp⟩
        intro c f
        rw [List.getElem?_append]
        split
        · exact Iff.rfl
        · next hl =>
          rw [List.getElem?_eq_none (l := p.cqs) (by omega)]
          cases hd : c - p.cqs.length <;> simp
      · cases h
        exact ⟨key _ (fun c f => Iff.rfl), [], by simp [St.set], by simp⟩
  | install a r id f =>
    simp only [step] at h
    cases hp : s.procs a r with
    | none => rw [hp] at h; cases h
    | some p =>
      rw [hp] at h
      simp only at h
      split at h
      · cases h
      · next hl =>
        split at h
        · cases h
        · cases h
          refine ⟨?_, [], by simp [St.set], by simp⟩
          funext a' r' c
          rw [set_fn]
          simp only [fnStep, List.getElem?_set]
          by_cases hc : a' = a ∧ r' = r
          · obtain ⟨rfl, rfl⟩ := hc
            simp only [and_self, true_and, if_true]
            by_cases hid : id = c
            · subst hid
              simp only [if_true]
              rw [if_pos (by omega)]
            · rw [if_neg hid, if_neg (fun e => hid e.symm)]
              unfold St.fn
              rw [hp]
          · rw [if_neg hc, if_neg (fun e => hc ⟨e.1, e.2.1⟩)]
  | dealloc a r id =>
    simp only [step] at h
    cases hp : s.procs a r with
    | none => rw [hp] at h; cases h
    | some p =>
      rw [hp] at h
      cases h
      refine ⟨?_, [], by simp [St.set], by simp⟩
      funext a' r' c
      rw [set_fn]
      simp only [fnStep]
      split
      · next hc =>
        unfold St.fn
        rw [hc.1, hc.2, hp]
      · rfl
  | smsg a r q lcq rcq | post a r q lcq rcq | put a r q lcq rcq | get a r q lcq rcq =>
    simp only [step] at h
    cases hp : s.procs a r with
    | none => rw [hp] at h; cases h
    | some p =>
      rw [hp] at h
      exact comm a r p _ hp h
  | smsgResp a r m lcq rcq | putResp a r m lcq rcq | getResp a r m lcq rcq =>
    simp only [step] at h
    cases hp : s.procs a r with
    | none => rw [hp] at h; cases h
    | some p =>
      rw [hp] at h
      simp only at h
      split at h
      · exact comm a r p _ hp h
      · cases h
  | arrive i =>
    simp only [step] at h
    cases hn : s.net[i]? with
    | none => rw [hn] at h; cases h
    | some x =>
      obtain ⟨n, m⟩ := x
      rw [hn] at h
      simp only at h
      split at h
      · cases h
        exact ⟨rfl, [], by simp, by simp⟩
      · unfold server at h
        cases ht : m.target with
        | error e => rw [ht] at h; cases h
        | ok t =>
          rw [ht] at h
          simp only at h
          obtain ⟨hk, rfl⟩ := target_ok ht
          have hs := slot_rest { s with net := s.net.eraseIdx i } (n, m.aid, m.rank)
          split at h
          · next p hp =>
            have hpr : s.procs m.aid m.rank = some p := by
              split at hp
              · exact hp
              · cases hp
            have hf : s'.fn = s.fn := fn_congr ((keeps_incoming h).1.trans hs.1)
            refine ⟨hf, ?_⟩
            rcases incoming_ok h with ⟨_, rfl⟩ | ⟨_, _, rfl⟩ | ⟨_, f, h0, hf', rfl⟩
            · exact ⟨[], by simp [hs], by simp⟩
            · exact ⟨[], by simp [hs], by simp⟩
            · refine ⟨[⟨m.aid, m.rank, m.cq, f, m⟩], by simp [hs], ?_⟩
              intro d hd
              rw [List.mem_singleton] at hd
              rw [hf, hd]
              exact ⟨h0, fn_some.2 ⟨p, hpr, hf'⟩⟩
          · cases h
            exact ⟨fn_congr hs.1, [], by simp [hs], by simp⟩

theorem run_append {node : Nat → Nat → Nat} : ∀ (l₁ l₂ : List Op) (s : St), run node s (l₁ ++ l₂) = (run node s l₁).bind (fun s' => run node s' l₂)
  | [], l₂, s => rfl
  | op :: l₁, l₂, s => by
    rw [List.cons_append, run, run]
    cases step node s op with
    | error e => rfl
    | ok s1 => exact run_append l₁ l₂ s1

theorem run_fn {node : Nat → Nat → Nat} : ∀ (ops : List Op) (s s' : St), run node s ops = .ok s' → s'.fn = ops.foldl fnStep s.fn
  | [], s, s', h => by rw [run] at h; cases h; rfl
  | op :: ops, s, s', h => by
    rw [run] at h
    cases hs : step node s op with
    | error e => rw [hs] at h; cases h
    | ok s1 =>
      rw [hs] at h
      rw [run_fn ops s1 s' h, (step_fn op hs).1]
      rfl

/-- Every completion is given to the function that was installed last for that queue of that process (after its
start); nothing that was given before is changed. -/
theorem C121_function (node : Nat → Nat → Nat) (ops : List Op) (op : Op) (s s' : St) (h : run node St.init ops = .ok s)
    (h' : run node St.init (ops ++ [op]) = .ok s') :
    ∃ new, s'.log = s.log ++ new ∧ ∀ d ∈ new, 0 ≤ d.cq ∧ fns (ops ++ [op]) d.aid d.rank d.cq.toNat = some d.handler := by
  have hf := run_fn _ _ _ h'
  rw [run_append, h] at h'
  replace h' : run node s [op] = .ok s' := h'
  rw [run] at h'
  cases hs : step node s op with
  | error e => rw [hs] at h'; cases h'
  | ok s1 =>
    rw [hs] at h'
    cases h'
    obtain ⟨_, new, h1, h2⟩ := step_fn op hs
    refine ⟨new, h1, fun d hd => ⟨(h2 d hd).1, ?_⟩⟩
    have h3 := (h2 d hd).2
    rw [hf] at h3
    exact h3

example : (run (fun _ r => r) St.init [.start 0 0, .allocId 0 0, .install 0 0 1 7, .smsg 0 0 0 (-1) 1]).toOption.map (fun s => s.log.map (fun d => (d.cq, d.handler))) =
    some [(1, 7)] := by decide

/-! ### Order -/

/-- What a step hands over to the transport of a process (or to the list of messages that wait for it), in order. -/
def handed (s : St) : Op → List Compl
  | .arrive i => match s.net[i]? with
    | some (n, m) => if m.kind = .getReq then [] else oblig (n, m)
    | none => []
  | .smsg a r q l rc => if q = r then at_ a r rc s.ops false ++ at_ a r l s.ops true else []
  | .smsgResp a r m l rc => if m.sender = r then at_ a r rc s.ops false ++ at_ a r l s.ops true else []
  | _ => []

/-- What a run hands over. -/
def handedAll (node : Nat → Nat → Nat) (s : St) : List Op → List Compl
  | [] => []
  | op :: ops => match step node s op with
    | .error _ => []
    | .ok s' => handed s op ++ handedAll node s' ops

/-- The completions of one queue. -/
def onQ (a r : Nat) (c : Int) (e : Compl) : Bool := e.aid == a && e.rank == r && e.cq == c

/-- Held messages belong to registered processes and their queues have no function. -/
def HInv (s : St) : Prop := ∀ x ∈ s.held, (s.procs x.1 x.2.1).isSome = true ∧ (0 ≤ x.2.2.1 → s.fn x.1 x.2.1 x.2.2.1.toNat = none)

/-- Completed or held. -/
def lh (s : St) : List Compl := s.log.map Deliv.key ++ s.held.map hkey

theorem filter_nil {α : Type} {p : α → Bool} {l : List α} (h : ∀ x ∈ l, p x = false) : l.filter p = [] := by
  rw [List.filter_eq_nil_iff]
  intro x hx
  rw [h x hx]
  decide

theorem call_lh {s s' : St} {a r : Nat} {p : Proc} {cq : Int} {m : Msg} (hp : s.procs a r = some p) (hh : HInv s) (h : call s a r p cq m = .ok s')
    (a0 r0 : Nat) (c0 : Int) :
    HInv s' ∧ (lh s').filter (onQ a0 r0 c0) = (lh s).filter (onQ a0 r0 c0) ++ [(⟨a, r, cq, m.op, m.kind.isAck⟩ : Compl)].filter (onQ a0 r0 c0) := by
  obtain ⟨f, h0, hf, rfl⟩ := call_ok h
  refine ⟨hh, ?_⟩
  simp only [lh, List.map_append, List.filter_append, List.map_cons, List.map_nil, Deliv.key, List.append_assoc]
  by_cases hc : onQ a0 r0 c0 ⟨a, r, cq, m.op, m.kind.isAck⟩ = true
  · have hnil : (s.held.map hkey).filter (onQ a0 r0 c0) = [] := by
      apply filter_nil
      intro e he
      obtain ⟨x, hx, rfl⟩ := List.mem_map.1 he
      rw [← Bool.not_eq_true]
      intro hc'
      simp only [onQ, hkey, Bool.and_eq_true, beq_iff_eq] at hc hc'
      obtain ⟨⟨c1, c2⟩, c3⟩ := hc
      obtain ⟨⟨d1, d2⟩, d3⟩ := hc'
      have := (hh x hx).2
      rw [d1, d2, d3, ← c1, ← c2, ← c3] at this
      have h1 := this h0
      rw [fn_some.2 ⟨p, hp, hf⟩] at h1
      cases h1
    rw [hnil]
    simp
  · rw [List.filter_cons_of_neg hc]
    simp

theorem incoming_lh {s s' : St} {a r : Nat} {p : Proc} {m : Msg} (hp : s.procs a r = some p) (hh : HInv s) (h : incomingMessage s a r p m = .ok s')
    (a0 r0 : Nat) (c0 : Int) :
    HInv s' ∧ (lh s').filter (onQ a0 r0 c0) = (lh s).filter (onQ a0 r0 c0) ++ (at_ a r m.cq m.op m.kind.isAck).filter (onQ a0 r0 c0) := by
  unfold incomingMessage at h
  change (if m.cq = noAck then _ else if m.cq < 0 ∨ (p.cqs.length : Int) ≤ m.cq then _ else _) = _ at h
  split at h
  · next h1 => cases h; exact ⟨hh, by simp [at_, h1]⟩
  · next h1 =>
    rw [count_at _ _ _ _ _ h1]
    split at h
    · next h2 =>
      cases h
      refine ⟨?_, by simp [lh, hkey, Msg.cq]⟩
      intro x hx
      rw [List.mem_append, List.mem_singleton] at hx
      rcases hx with hx | rfl
      · exact hh x hx
      · refine ⟨by simp [hp], fun h0 => ?_⟩
        change 0 ≤ m.cq at h0
        show St.fn _ a r m.cq.toNat = none
        unfold St.fn
        simp only [hp]
        rw [List.getElem?_eq_none (by omega)]
    · exact call_lh hp hh h a0 r0 c0

theorem drain_lh {node : Nat → Nat → Nat} {a r : Nat} {p : Proc} (a0 r0 : Nat) (c0 : Int) : ∀ (l : List (Nat × Msg)) (s s' : St), s.procs a r = some p → HInv s →
    (∀ x ∈ l, Wf node x ∧ x.2.kind ≠ .getReq) → (∀ x ∈ s.pending, x.2.kind ≠ .getReq ∧ ¬ (x.2.aid = a ∧ x.2.rank = r)) → drain (node a r) a r p s l = .ok s' →
    HInv s' ∧ (lh s' ++ s'.pending.flatMap oblig).filter (onQ a0 r0 c0) = (lh s ++ (s.pending.flatMap oblig ++ l.flatMap oblig)).filter (onQ a0 r0 c0)
  | [], s, s', hp, hh, hw, hs, h => by
    rw [drain] at h
    cases h
    exact ⟨hh, by simp⟩
  | (n', m) :: l, s, s', hp, hh, hw, hs, h => by
    rw [drain] at h
    have hk := (hw (n', m) (by simp)).2
    simp only at hk
    rw [target_eq m hk] at h
    have hn := wf_node (hw (n', m) (by simp)).1 hk
    simp only at h
    split at h
    · next hc =>
      obtain ⟨rfl, hr, ha⟩ := hc
      cases hi : incomingMessage s a r p m with
      | error e => rw [hi] at h; cases h
      | ok s1 =>
        rw [hi] at h
        obtain ⟨k1, k2, k3, k4, k5, k6⟩ := keeps_incoming hi
        obtain ⟨g1, g2⟩ := incoming_lh hp hh hi a0 r0 c0
        obtain ⟨g3, g4⟩ := drain_lh a0 r0 c0 l s1 s' (by rw [k1]; exact hp) g1 (fun x hx => hw x (by simp [hx])) (by rw [k3]; exact hs) h
        refine ⟨g3, ?_⟩
        rw [g4, k3]
        simp only [List.filter_append, List.flatMap_cons] at g2 ⊢
        rw [g2, oblig_eq _ m hk, ha, hr]
        by_cases hz : a0 = a ∧ r0 = r
        · have hnil : (s.pending.flatMap oblig).filter (onQ a0 r0 c0) = [] := by
            apply filter_nil
            intro e he
            obtain ⟨x, hx, he⟩ := List.mem_flatMap.1 he
            obtain ⟨y1, y2⟩ := hs x hx
            obtain ⟨xn, xm⟩ := x
            rw [oblig_eq xn xm y1] at he
            unfold at_ at he
            split at he
            · cases he
            · rw [List.mem_singleton] at he
              rw [he, ← Bool.not_eq_true]
              intro hc
              simp only [onQ, Bool.and_eq_true, beq_iff_eq] at hc
              exact y2 ⟨hc.1.1.trans hz.1, hc.1.2.trans hz.2⟩
          rw [hnil]
          simp
        · have hnil : (at_ a r m.cq m.op m.kind.isAck).filter (onQ a0 r0 c0) = [] := by
            apply filter_nil
            intro e he
            unfold at_ at he
            split at he
            · cases he
            · rw [List.mem_singleton] at he
              rw [he, ← Bool.not_eq_true]
              intro hc
              simp only [onQ, Bool.and_eq_true, beq_iff_eq] at hc
              exact hz ⟨hc.1.1.symm, hc.1.2.symm⟩
          rw [hnil]
          simp
    · next hc =>
      have := drain_lh (node := node) a0 r0 c0 l { s with pending := s.pending ++ [(n', m)] } s' hp hh (fun x hx => hw x (by simp [hx])) (by
        intro x hx
        simp only [List.mem_append, List.mem_singleton] at hx
        rcases hx with hx | rfl
        · exact hs x hx
        · refine ⟨hk, fun hz => hc ⟨?_, hz.2, hz.1⟩⟩
          simp only at hz
          rw [hn, hz.1, hz.2]) h
      refine ⟨this.1, this.2.trans ?_⟩
      simp [lh]

theorem oblig_onQ {n : Nat} {m : Msg} (hk : m.kind ≠ .getReq) {a0 r0 : Nat} {c0 : Int} (h : ¬ (m.aid = a0 ∧ m.rank = r0)) :
    (oblig (n, m)).filter (onQ a0 r0 c0) = [] := by
  apply filter_nil
  intro e he
  rw [oblig_eq n m hk] at he
  unfold at_ at he
  split at he
  · cases he
  · rw [List.mem_singleton] at he
    rw [he, ← Bool.not_eq_true]
    intro hc
    simp only [onQ, Bool.and_eq_true, beq_iff_eq] at hc
    exact h ⟨hc.1.1, hc.1.2⟩

/-- Nothing waits for a registered process. -/
theorem pending_nil {node : Nat → Nat → Nat} {s : St} {ex : List Compl} (hi : Inv node s ex) {a r : Nat} (hp : (s.procs a r).isSome = true) (c0 : Int) :
    (s.pending.flatMap oblig).filter (onQ a r c0) = [] := by
  rw [List.filter_flatMap]
  rw [List.flatMap_eq_nil_iff]
  intro x hx
  obtain ⟨n, m⟩ := x
  refine oblig_onQ (hi.pending _ hx).2 (fun hc => ?_)
  have h1 : s.procs m.aid m.rank = none := hi.reg _ hx
  rw [hc.1, hc.2] at h1
  rw [h1] at hp
  cases hp

/-- The order of one queue. -/
def view (s : St) (a r : Nat) (c : Int) : List Compl := (lh s ++ s.pending.flatMap oblig).filter (onQ a r c)

/-- The calls of the process itself. -/
theorem self_view {node : Nat → Nat → Nat} {s s' : St} {ex : List Compl} (hi : Inv node s ex) (hh : HInv s) {a r : Nat} {p : Proc} (hp : s.procs a r = some p) {m : Msg}
    (hm : WfNew node a r m) (h : send node s a r p m = .ok s') (a0 r0 : Nat) (c0 : Int) :
    HInv s' ∧ s'.lost = s.lost ∧ view s' a0 r0 c0 = view s a0 r0 c0 ++
      (if m.kind = .smsg ∧ m.recver = r then at_ a r m.recvCq m.op false ++ at_ a r m.sendCq m.op true else []).filter (onQ a0 r0 c0) := by
  unfold send at h
  split at h
  · next hself =>
    obtain ⟨hk, hr⟩ := hself
    rw [if_pos ⟨hk, hr⟩]
    obtain ⟨hw, _⟩ := hm
    have hsc := hw.2.1
    have hrc := hw.2.2.1
    simp only at hsc hrc
    have hka : m.kind.isAck = false := by rw [hk]; rfl
    have hak : m.ack.kind.isAck = true := by unfold Msg.ack; rw [hk]; rfl
    have hpn : ∀ l : List Compl, (∀ e ∈ l, e.aid = a ∧ e.rank = r) →
        (lh s).filter (onQ a0 r0 c0) ++ l.filter (onQ a0 r0 c0) ++ (s.pending.flatMap oblig).filter (onQ a0 r0 c0) =
        (lh s).filter (onQ a0 r0 c0) ++ (s.pending.flatMap oblig).filter (onQ a0 r0 c0) ++ l.filter (onQ a0 r0 c0) := by
      intro l hl
      by_cases hz : a0 = a ∧ r0 = r
      · obtain ⟨rfl, rfl⟩ := hz
        rw [pending_nil hi (by rw [hp]; rfl)]
        simp
      · have : l.filter (onQ a0 r0 c0) = [] := by
          apply filter_nil
          intro e he
          rw [← Bool.not_eq_true]
          intro hc
          simp only [onQ, Bool.and_eq_true, beq_iff_eq] at hc
          exact hz ⟨hc.1.1.symm.trans (hl e he).1, hc.1.2.symm.trans (hl e he).2⟩
        rw [this]
        simp
    have hat : ∀ (c : Int) (k : Nat) (b : Bool), ∀ e ∈ at_ a r c k b, e.aid = a ∧ e.rank = r := by
      intro c k b e he
      unfold at_ at he
      split at he
      · cases he
      · rw [List.mem_singleton] at he
        rw [he]
        exact ⟨rfl, rfl⟩
    have fin : ∀ s1 : St, s1.procs = s.procs → s1.pending = s.pending → s1.lost = s.lost → HInv s1 →
        (lh s1).filter (onQ a0 r0 c0) = (lh s).filter (onQ a0 r0 c0) ++ (at_ a r m.recvCq m.op false).filter (onQ a0 r0 c0) →
        (if 0 ≤ m.sendCq then call s1 a r p m.sendCq m.ack else .ok s1) = .ok s' →
        HInv s' ∧ s'.lost = s.lost ∧ view s' a0 r0 c0 = view s a0 r0 c0 ++ (at_ a r m.recvCq m.op false ++ at_ a r m.sendCq m.op true).filter (onQ a0 r0 c0) := by
      intro s1 e1 e2 e3 hh1 hl1 h1
      have hall : ∀ e ∈ at_ a r m.recvCq m.op false ++ at_ a r m.sendCq m.op true, e.aid = a ∧ e.rank = r := by
        intro e he
        rw [List.mem_append] at he
        exact he.elim (hat _ _ _ e) (hat _ _ _ e)
      have hfin := hpn _ hall
      simp only [view, List.filter_append] at hfin ⊢
      rw [← hfin]
      split at h1
      · next h0 =>
        have hne : m.sendCq ≠ noAck := by unfold noAck; omega
        obtain ⟨g1, g2⟩ := call_lh (by rw [e1]; exact hp) hh1 h1 a0 r0 c0
        obtain ⟨f, _, _, rfl⟩ := call_ok h1
        refine ⟨g1, e3, ?_⟩
        rw [g2, hl1, count_at _ _ m.sendCq _ _ hne, hak, e2]
        simp [Msg.ack, Msg.hwReverse]
      · next h0 =>
        have hne : m.sendCq = noAck := by unfold noAck; omega
        cases h1
        refine ⟨hh1, e3, ?_⟩
        rw [hl1, e2, hne]
        simp [at_]
    by_cases h0 : 0 ≤ m.recvCq
    · rw [if_pos h0] at h
      cases hc : call s a r p m.recvCq m with
      | error e => rw [hc] at h; cases h
      | ok s1 =>
        rw [hc] at h
        obtain ⟨g1, g2⟩ := call_lh hp hh hc a0 r0 c0
        have hne : m.recvCq ≠ noAck := by unfold noAck; omega
        obtain ⟨f, _, _, rfl⟩ := call_ok hc
        refine fin { s with log := s.log ++ [⟨a, r, m.recvCq, f, m⟩] } rfl rfl rfl g1 ?_ h
        rw [g2, hka, count_at _ _ _ _ _ hne]
    · rw [if_neg h0] at h
      have hne : m.recvCq = noAck := by unfold noAck; omega
      refine fin s rfl rfl rfl hh ?_ h
      rw [hne]
      simp [at_]
  · next hself =>
    rw [if_neg hself]
    cases h
    exact ⟨hh, rfl, by simp [view, lh, inject]⟩

/-- What is lost stays lost. -/
theorem step_view {node : Nat → Nat → Nat} {s s' : St} {ex : List Compl} (hi : Inv node s ex) (hh : HInv s) (op : Op) (hq : op.queuesOk) (hg : op.noGet)
    (h : step node s op = .ok s') (a0 r0 : Nat) (c0 : Int) :
    HInv s' ∧ ((s'.lost.map hkey).filter (onQ a0 r0 c0) = [] → (s.lost.map hkey).filter (onQ a0 r0 c0) = [] ∧
      view s' a0 r0 c0 = view s a0 r0 c0 ++ (handed s op).filter (onQ a0 r0 c0)) := by
  have comm : ∀ (a r : Nat) (p : Proc) (m : Msg), s.procs a r = some p → WfNew node a r m → 
      handed s op = (if m.kind = .smsg ∧ m.recver = r then at_ a r m.recvCq m.op false ++ at_ a r m.sendCq m.op true else []) →
      send node { s with ops := s.ops + 1 } a r p m = .ok s' →
      HInv s' ∧ ((s'.lost.map hkey).filter (onQ a0 r0 c0) = [] → (s.lost.map hkey).filter (onQ a0 r0 c0) = [] ∧
      view s' a0 r0 c0 = view s a0 r0 c0 ++ (handed s op).filter (onQ a0 r0 c0)) := by
    intro a r p m hp hm he hs
    obtain ⟨g1, g2, g3⟩ := self_view (s := { s with ops := s.ops + 1 }) (ex := ex) ⟨hi.perm, hi.net, hi.pending, hi.log, hi.reg, hi.slots, hi.slots'⟩ hh hp hm hs a0 r0 c0
    refine ⟨g1, fun hl => ⟨by rw [g2] at hl; exact hl, ?_⟩⟩
    rw [g3, he]
    rfl
  cases op with
  | start a r =>
    simp only [step] at h
    cases hp : s.procs a r with
    | some p => rw [hp] at h; cases h
    | none =>
      rw [hp] at h
      simp only at h
      have hnone : ∀ x ∈ s.held, ¬ (x.1 = a ∧ x.2.1 = r) := by
        intro x hx hc
        have := (hh x hx).1
        rw [hc.1, hc.2, hp] at this
        cases this
      have hs := slot_rest { s.set a r (some ⟨[some defaultFn], []⟩) with pending := [] } (node a r, a, r)
      have hlost := (drain_ok _ _ _ h).2.2.2.2.1
      obtain ⟨g1, g2⟩ := drain_lh (node := node) a0 r0 c0 _ _ _ (by rw [hs.1]; simp [St.set]) (by
        intro x hx
        rw [hs.2.2.2.2.1] at hx
        obtain ⟨y1, y2⟩ := hh x hx
        have hfn : (St.slot { s.set a r (some ⟨[some defaultFn], []⟩) with pending := [] } (node a r, a, r)).fn x.1 x.2.1 = s.fn x.1 x.2.1 := by
          funext c
          refine (congrFun (congrFun (congrFun (fn_congr (s := s.set a r (some ⟨[some defaultFn], []⟩)) hs.1) _) _) c).trans ?_
          rw [set_fn, if_neg (hnone x hx)]
        rw [hs.1, hfn]
        refine ⟨?_, y2⟩
        simp only [St.set]
        rw [if_neg (hnone x hx)]
        exact y1) hi.pending (by rw [hs.2.1]; simp) h
      refine ⟨g1, fun hl => ⟨?_, ?_⟩⟩
      · rw [hlost, hs.2.2.2.2.2.1] at hl
        exact hl
      · show (lh s' ++ _).filter _ = _ ++ List.filter _ []
        rw [g2]
        simp only [view, lh, hs]
        simp [St.set]
  | finish a r =>
    simp only [step] at h
    cases hp : s.procs a r with
    | none => rw [hp] at h; cases h
    | some p =>
      rw [hp] at h
      cases h
      refine ⟨?_, fun hl => ?_⟩
      · intro x hx
        simp only [List.mem_filter, Bool.not_eq_true', Bool.and_eq_false_iff, beq_eq_false_iff_ne] at hx
        have hne : ¬ (x.1 = a ∧ x.2.1 = r) := fun hc => hx.2.elim (· hc.1) (· hc.2)
        obtain ⟨y1, y2⟩ := hh x hx.1
        refine ⟨?_, fun h0 => ?_⟩
        · simp only [St.set]; rw [if_neg hne]; exact y1
        · refine Eq.trans ?_ (y2 h0)
          refine (congrFun (congrFun (congrFun (fn_congr (s := s.set a r none) rfl) _) _) _).trans ?_
          rw [set_fn, if_neg hne]
      · simp only [List.map_append, List.filter_append, List.append_eq_nil_iff] at hl
        refine ⟨hl.1, ?_⟩
        show (lh _ ++ _).filter _ = _ ++ List.filter _ []
        simp only [view, lh, St.set, List.filter_append, List.append_nil, List.filter_nil]
        have : ∀ l : List (Nat × Nat × Int × Msg), ((l.filter (fun x => x.1 == a && x.2.1 == r)).map hkey).filter (onQ a0 r0 c0) = [] →
            ((l.filter (fun x => !(x.1 == a && x.2.1 == r))).map hkey).filter (onQ a0 r0 c0) = (l.map hkey).filter (onQ a0 r0 c0) := by
          intro l
          induction l with
          | nil => intro _; rfl
          | cons x l ih =>
            intro hn
            cases hx : (x.1 == a && x.2.1 == r) with
            | true =>
              rw [List.filter_cons, if_pos hx, List.map_cons] at hn
              rw [List.filter_cons (xs := l), if_neg (by simp [hx]), List.map_cons]
              by_cases ho : onQ a0 r0 c0 (hkey x) = true
              · rw [List.filter_cons_of_pos ho] at hn; cases hn
              · rw [List.filter_cons_of_neg ho] at hn ⊢
                exact ih hn
            | false =>
              rw [List.filter_cons, if_neg (by simp [hx])] at hn
              rw [List.filter_cons, if_pos (by simp [hx]), List.map_cons, List.map_cons, List.filter_cons, List.filter_cons, ih hn]
        rw [this _ hl.2]
  | allocId a r | dealloc a r id =>
    have hf := (step_fn _ h).1
    have hsame : s'.held = s.held ∧ s'.log = s.log ∧ s'.pending = s.pending ∧ s'.lost = s.lost ∧ ∀ a' r', (s.procs a' r').isSome = true → (s'.procs a' r').isSome = true := by
      simp only [step] at h
      cases hp : s.procs a r with
      | none => rw [hp] at h; cases h
      | some p =>
        rw [hp] at h
        simp only at h
        have hset : ∀ (p' : Proc) (a' r' : Nat), (s.procs a' r').isSome = true → ((s.set a r (some p')).procs a' r').isSome = true := by
          intro p' a' r' h'
          simp only [St.set]
          split
          · rfl
          · exact h'
        first
          | (cases h; exact ⟨rfl, rfl, rfl, rfl, hset _⟩)
          | (split at h <;> cases h <;> exact ⟨rfl, rfl, rfl, rfl, hset _⟩)
    obtain ⟨e1, e2, e3, e4, e5⟩ := hsame
    refine ⟨?_, fun hl => ⟨by rw [e4] at hl; exact hl, ?_⟩⟩
    · intro x hx
      rw [e1] at hx
      rw [hf]
      exact ⟨e5 _ _ (hh x hx).1, (hh x hx).2⟩
    · show view s' a0 r0 c0 = _ ++ List.filter _ []
      simp only [view, lh, e1, e2, e3, List.filter_nil, List.append_nil]
  | install a r id f =>
    have hf := (step_fn _ h).1
    simp only [step] at h
    cases hp : s.procs a r with
    | none => rw [hp] at h; cases h
    | some p =>
      rw [hp] at h
      simp only at h
      split at h
      · cases h
      · split at h
        · cases h
        · next hno =>
          cases h
          refine ⟨?_, fun hl => ⟨hl, by simp [view, lh, St.set, handed]⟩⟩
          intro x hx
          obtain ⟨y1, y2⟩ := hh x hx
          rw [hf]
          refine ⟨?_, fun h0 => ?_⟩
          · simp only [St.set]
            split
            · rfl
            · exact y1
          · simp only [fnStep]
            rw [if_neg]
            · exact y2 h0
            · intro hc
              apply hno
              rw [List.any_eq_true]
              refine ⟨x, hx, ?_⟩
              simp only [Bool.and_eq_true, beq_iff_eq]
              exact ⟨⟨hc.1, hc.2.1⟩, by omega⟩
  | smsg a r q lcq rcq =>
    simp only [step] at h
    cases hp : s.procs a r with
    | none => rw [hp] at h; cases h
    | some p =>
      rw [hp] at h
      exact comm a r p (fresh node s .smsg a r q lcq rcq) hp ⟨⟨rfl, hq.1, hq.2, rfl, rfl, rfl⟩, rfl, rfl, (by simp [fresh]), (by simp [fresh]), fun _ => rfl⟩ (by simp [handed, fresh]) h
  | post a r q lcq rcq =>
    simp only [step] at h
    cases hp : s.procs a r with
    | none => rw [hp] at h; cases h
    | some p =>
      rw [hp] at h
      exact comm a r p (fresh node s .posted a r q lcq rcq) hp ⟨⟨rfl, hq.1, hq.2, rfl, rfl, rfl⟩, rfl, rfl, (by simp [fresh]), (by simp [fresh]), fun _ => rfl⟩ (by simp [handed, fresh]) h
  | put a r q lcq rcq =>
    simp only [step] at h
    cases hp : s.procs a r with
    | none => rw [hp] at h; cases h
    | some p =>
      rw [hp] at h
      exact comm a r p (fresh node s .putPay a r q lcq rcq) hp ⟨⟨rfl, hq.1, hq.2, rfl, rfl, rfl⟩, rfl, rfl, (by simp [fresh]), (by simp [fresh]), fun _ => rfl⟩ (by simp [handed, fresh]) h
  | get a r q lcq rcq =>
    simp only [step] at h
    cases hp : s.procs a r with
    | none => rw [hp] at h; cases h
    | some p =>
      rw [hp] at h
      have hqr : q = r := hg
      subst hqr
      exact comm a q p (fresh node s .getReq a q q rcq lcq) hp ⟨⟨rfl, hq.2, hq.1, rfl, rfl, rfl⟩, rfl, rfl, (by simp [fresh]), (fun _ => rfl), fun _ => rfl⟩ (by simp [handed, fresh]) h
  | smsgResp a r m lcq rcq =>
    simp only [step] at h
    cases hp : s.procs a r with
    | none => rw [hp] at h; cases h
    | some p =>
      rw [hp] at h
      simp only at h
      split at h
      · next hr =>
        obtain ⟨g1, g2, g3, g4, g5, g6⟩ := received_wf hi hr
        refine comm a r p _ hp ?_ ?_ h
        · refine ⟨⟨rfl, hq.1, hq.2, ?_⟩, g3, rfl, (by simp), (by simp), fun _ => g4⟩
          simp only [Msg.swReverse, Msg.hwReverse]
          rw [g3, g4]
          exact ⟨g6, g6, g5⟩
        · simp [handed, Msg.swReverse, Msg.hwReverse]
      · cases h
  | putResp a r m lcq rcq =>
    simp only [step] at h
    cases hp : s.procs a r with
    | none => rw [hp] at h; cases h
    | some p =>
      rw [hp] at h
      simp only at h
      split at h
      · next hr =>
        obtain ⟨g1, g2, g3, g4, g5, g6⟩ := received_wf hi hr
        refine comm a r p _ hp ?_ ?_ h
        · refine ⟨⟨rfl, hq.1, hq.2, ?_⟩, g3, rfl, (by simp), (by simp), fun _ => g4⟩
          simp only [Msg.swReverse, Msg.hwReverse]
          rw [g3, g4]
          exact ⟨g6, g6, g5⟩
        · simp [handed]
      · cases h
  | getResp a r m lcq rcq =>
    simp only [step] at h
    cases hp : s.procs a r with
    | none => rw [hp] at h; cases h
    | some p =>
      rw [hp] at h
      simp only at h
      split at h
      · next hr =>
        obtain ⟨g1, g2, g3, g4, g5, g6⟩ := received_wf hi hr
        refine comm a r p _ hp ?_ ?_ h
        · refine ⟨⟨rfl, hq.2, hq.1, ?_⟩, g3, rfl, (by simp), (fun _ => g4), (by simp)⟩
          simp only [Msg.hwReverse]
          rw [g3, g4]
          exact ⟨g6, g6, g5⟩
        · simp [handed]
      · cases h
  | arrive i =>
    simp only [step] at h
    simp only [handed]
    cases hn : s.net[i]? with
    | none => rw [hn] at h; cases h
    | some x =>
      obtain ⟨n, m⟩ := x
      rw [hn] at h
      simp only at h
      have hw : Wf node (n, m) := hi.net _ (List.mem_of_getElem? hn)
      split at h
      · next hk =>
        cases h
        refine ⟨hh, fun hl => ⟨hl, ?_⟩⟩
        simp only
        rw [if_pos hk]
        simp [view, lh]
      · next hk =>
        simp only
        rw [if_neg hk]
        unfold server at h
        rw [target_eq m hk] at h
        have hnn := wf_node hw hk
        simp only [← hnn, if_true] at h
        have hs := slot_rest { s with net := s.net.eraseIdx i } (n, m.aid, m.rank)
        cases hp : s.procs m.aid m.rank with
        | none =>
          rw [hp] at h
          cases h
          refine ⟨?_, fun hl => ⟨?_, ?_⟩⟩
          · intro x hx
            simp only [hs] at hx ⊢
            refine ⟨(hh x hx).1, fun h0 => Eq.trans ?_ ((hh x hx).2 h0)⟩
            rfl
          · simp only [hs] at hl
            exact hl
          · simp [view, lh, hs]
        | some p =>
          rw [hp] at h
          simp only at h
          obtain ⟨k1, k2, k3, k4, k5, k6⟩ := keeps_incoming h
          obtain ⟨g1, g2⟩ := incoming_lh (by rw [hs.1]; exact hp) (by
            intro x hx
            rw [hs.2.2.2.2.1] at hx
            rw [hs.1]
            refine ⟨(hh x hx).1, fun h0 => Eq.trans ?_ ((hh x hx).2 h0)⟩
            exact congrFun (congrFun (congrFun (fn_congr (s := s) hs.1) _) _) _) h a0 r0 c0
          refine ⟨g1, fun hl => ⟨?_, ?_⟩⟩
          · rw [k5, hs.2.2.2.2.2.1] at hl
            exact hl
          · have hlh : lh (St.slot { s with net := s.net.eraseIdx i } (n, m.aid, m.rank)) = lh s := by simp [lh, hs]
            rw [hlh] at g2
            simp only [view, List.filter_append, g2, k3, hs.2.1]
            rw [oblig_eq n m hk]
            by_cases hz : m.aid = a0 ∧ m.rank = r0
            · obtain ⟨rfl, rfl⟩ := hz
              rw [pending_nil hi (by rw [hp]; rfl)]
              simp
            · have := oblig_onQ (n := n) (c0 := c0) hk hz
              rw [oblig_eq n m hk] at this
              rw [this]
              simp

theorem run_view {node : Nat → Nat → Nat} (a0 r0 : Nat) (c0 : Int) : ∀ (ops : List Op) (s s' : St) (ex : List Compl), Inv node s ex → HInv s →
    (∀ op ∈ ops, op.queuesOk ∧ op.noGet) → run node s ops = .ok s' →
    (s'.lost.map hkey).filter (onQ a0 r0 c0) = [] → (s.lost.map hkey).filter (onQ a0 r0 c0) = [] ∧
      view s' a0 r0 c0 = view s a0 r0 c0 ++ (handedAll node s ops).filter (onQ a0 r0 c0)
  | [], s, s', ex, hi, hh, hq, h, hl => by
    rw [run] at h
    cases h
    exact ⟨hl, by simp [handedAll]⟩
  | op :: ops, s, s', ex, hi, hh, hq, h, hl => by
    rw [run] at h
    rw [handedAll]
    cases hs : step node s op with
    | error e => rw [hs] at h; cases h
    | ok s1 =>
      rw [hs] at h
      obtain ⟨h1, h2⟩ := step_inv hi op (hq op (by simp)).1 (hq op (by simp)).2 hs
      obtain ⟨h3, h4⟩ := step_view hi hh op (hq op (by simp)).1 (hq op (by simp)).2 hs a0 r0 c0
      obtain ⟨h5, h6⟩ := run_view a0 r0 c0 ops s1 s' _ h1 h3 (fun o ho => hq o (by simp [ho])) h hl
      obtain ⟨h7, h8⟩ := h4 h5
      refine ⟨h7, ?_⟩
      rw [h6, h8]
      simp

/-- What a queue of a process gets, it gets in the order in which the network (or the process itself) handed it
over, without a gap: first what it got, then what is held for the queue or waits for the process. -/
theorem C121_order (node : Nat → Nat → Nat) (ops : List Op) (s : St) (hq : ∀ op ∈ ops, op.queuesOk ∧ op.noGet) (h : run node St.init ops = .ok s)
    (a r : Nat) (c : Int) (hl : ∀ x ∈ s.lost, ¬ (x.1 = a ∧ x.2.1 = r ∧ x.2.2.1 = c)) :
    (s.log.map Deliv.key).filter (onQ a r c) ++ (s.held.map hkey).filter (onQ a r c) ++ (s.pending.flatMap oblig).filter (onQ a r c) =
      (handedAll node St.init ops).filter (onQ a r c) := by
  have := (run_view a r c ops _ _ [] (inv_init node) (by intro x hx; cases hx) hq h (by
    apply filter_nil
    intro e he
    obtain ⟨x, hx, rfl⟩ := List.mem_map.1 he
    rw [← Bool.not_eq_true]
    intro hc
    simp only [onQ, hkey, Bool.and_eq_true, beq_iff_eq] at hc
    exact hl x hx ⟨hc.1.1, hc.1.2, hc.2⟩)).2
  simpa [view, lh, St.init] using this

/-- Two messages that overtake each other on the way reach a process that starts late in the order of arrival. -/
def late : List Op := [.start 0 0, .smsg 0 0 1 (-1) 0, .smsg 0 0 1 (-1) 0, .arrive 1, .arrive 0, .start 0 1]

example : (run (fun _ r => r) St.init late).toOption.map (fun s => s.log.map Deliv.key) = some [⟨0, 1, 0, 1, false⟩, ⟨0, 1, 0, 0, false⟩] ∧
    handedAll (fun _ r => r) St.init late = [⟨0, 1, 0, 1, false⟩, ⟨0, 1, 0, 0, false⟩] := by decide

/-! ### Runs that do not fail -/

/-- A queue that may be named for a process: none, the first one, or one whose function was installed. -/
def ready (f : Nat → Nat → Nat → Option Nat) (a r : Nat) (c : Int) : Prop := c = -1 ∨ c = 0 ∨ (0 ≤ c ∧ (f a r c.toNat).isSome = true)

/-- The discipline: a process starts once, queues other than the first one are named for a process only after it
has installed them, functions are installed for queues that exist, and `rdmaGet` is not used on other processes. -/
def careful (s : St) (past : List Op) : Op → Prop
  | .start a r => .start a r ∉ past
  | .install a r id _ => ∀ p, s.procs a r = some p → id < p.cqs.length
  | .smsg a r q l rc | .post a r q l rc | .put a r q l rc => ready (fns past) a r l ∧ ready (fns past) a q rc
  | .get a r q l rc => q = r ∧ ready (fns past) a r l ∧ ready (fns past) a q rc
  | .smsgResp a r m l rc | .putResp a r m l rc | .getResp a r m l rc => ready (fns past) a r l ∧ ready (fns past) a m.sender rc
  | _ => True

/-- The discipline is kept through a run. -/
def carefulRun (node : Nat → Nat → Nat) (s : St) (past : List Op) : List Op → Prop
  | [] => True
  | op :: ops => careful s past op ∧ ∀ s', step node s op = .ok s' → carefulRun node s' (past ++ [op]) ops

/-- A completion on the way will find its function. -/
def okE (s : St) (past : List Op) (e : Compl) : Prop :=
  e.cq = 0 ∨ (0 ≤ e.cq ∧ (s.fn e.aid e.rank e.cq.toNat).isSome = true) ∨ (.start e.aid e.rank ∈ past ∧ s.procs e.aid e.rank = none)

/-- The invariant of the discipline. -/
structure Good (node : Nat → Nat → Nat) (s : St) (past : List Op) : Prop where
  inv : Inv node s (total s)
  held : s.held = []
  lost : s.lost = []
  fn : s.fn = fns past
  zero : ∀ a r, (s.procs a r).isSome = true → (s.fn a r 0).isSome = true ∧ .start a r ∈ past
  way : ∀ e, e ∈ s.net.flatMap oblig ∨ e ∈ s.pending.flatMap oblig → okE s past e

theorem incoming_succ {s : St} {a r : Nat} {p : Proc} {m : Msg} (h : m.cq = noAck ∨ (0 ≤ m.cq ∧ ∃ f, p.cqs[m.cq.toNat]? = some (some f))) :
    ∃ s', incomingMessage s a r p m = .ok s' ∧ s'.held = s.held := by
  unfold incomingMessage
  change ∃ s', (if m.cq = noAck then _ else if m.cq < 0 ∨ (p.cqs.length : Int) ≤ m.cq then _ else call s a r p m.cq m) = Except.ok s' ∧ _
  by_cases h1 : m.cq = noAck
  · rw [if_pos h1]; exact ⟨s, rfl, rfl⟩
  · rcases h with h | ⟨h0, f, hf⟩
    · exact absurd h h1
    · have hl : m.cq.toNat < p.cqs.length := (List.getElem?_eq_some_iff.1 hf).1
      have hin : ¬ (m.cq < 0 ∨ (p.cqs.length : Int) ≤ m.cq) := by omega
      rw [if_neg h1, if_neg hin]
      unfold call
      rw [if_neg hin, hf]
      exact ⟨_, rfl, rfl⟩

theorem drain_succ {n a r : Nat} {p : Proc} : ∀ (l : List (Nat × Msg)) (s : St), (∀ x ∈ l, x.2.kind ≠ .getReq) →
    (∀ x ∈ l, x.2.aid = a → x.2.rank = r → x.2.cq = noAck ∨ (0 ≤ x.2.cq ∧ ∃ f, p.cqs[x.2.cq.toNat]? = some (some f))) →
    ∃ s', drain n a r p s l = .ok s' ∧ s'.held = s.held
  | [], s, _, _ => ⟨s, rfl, rfl⟩
  | (n', m) :: l, s, hk, hc => by
    rw [drain, target_eq m (hk (n', m) (by simp))]
    simp only
    split
    · next hh =>
      obtain ⟨s1, h1, h2⟩ := incoming_succ (s := s) (a := a) (r := r) (hc (n', m) (by simp) hh.2.2 hh.2.1)
      rw [h1]
      obtain ⟨s', h3, h4⟩ := drain_succ (n := n) (a := a) (r := r) (p := p) l s1 (fun x hx => hk x (by simp [hx])) (fun x hx => hc x (by simp [hx]))
      exact ⟨s', h3, h4.trans h2⟩
    · exact drain_succ l _ (fun x hx => hk x (by simp [hx])) (fun x hx => hc x (by simp [hx]))

theorem call_succ {s : St} {a r : Nat} {p : Proc} {cq : Int} {m : Msg} (h : 0 ≤ cq ∧ ∃ f, p.cqs[cq.toNat]? = some (some f)) :
    ∃ s', call s a r p cq m = .ok s' ∧ s'.held = s.held ∧ s'.lost = s.lost := by
  obtain ⟨h0, f, hf⟩ := h
  have hl : cq.toNat < p.cqs.length := (List.getElem?_eq_some_iff.1 hf).1
  unfold call
  rw [if_neg (by omega), hf]
  exact ⟨_, rfl, rfl, rfl⟩

theorem fn_isSome {s : St} {a r c : Nat} {p : Proc} (hp : s.procs a r = some p) (h : (s.fn a r c).isSome = true) : ∃ f, p.cqs[c]? = some (some f) := by
  obtain ⟨f, hf⟩ := Option.isSome_iff_exists.1 h
  obtain ⟨p', h1, h2⟩ := fn_some.1 hf
  rw [hp] at h1
  cases h1
  exact ⟨f, h2⟩

theorem ready_fn {node : Nat → Nat → Nat} {s : St} {past : List Op} (hg : Good node s past) {a r : Nat} {p : Proc} (hp : s.procs a r = some p) {c : Int}
    (hr : ready (fns past) a r c) (h0 : 0 ≤ c) : 0 ≤ c ∧ ∃ f, p.cqs[c.toNat]? = some (some f) := by
  refine ⟨h0, ?_⟩
  rcases hr with h | h | h
  · omega
  · subst h
    exact fn_isSome hp (hg.zero a r (by rw [hp]; rfl)).1
  · rw [← hg.fn] at h
    exact fn_isSome hp h.2

theorem send_succ {node : Nat → Nat → Nat} {s : St} {a r : Nat} {p : Proc} {m : Msg}
    (h : m.kind = .smsg ∧ m.recver = r → (0 ≤ m.recvCq → ∃ f, p.cqs[m.recvCq.toNat]? = some (some f)) ∧ (0 ≤ m.sendCq → ∃ f, p.cqs[m.sendCq.toNat]? = some (some f))) :
    ∃ s', send node s a r p m = .ok s' ∧ s'.held = s.held ∧ s'.lost = s.lost := by
  unfold send
  split
  · next hs =>
    obtain ⟨h1, h2⟩ := h hs
    have fin : ∀ s1 : St, ∃ s', (if 0 ≤ m.sendCq then call s1 a r p m.sendCq m.ack else .ok s1) = .ok s' ∧ s'.held = s1.held ∧ s'.lost = s1.lost := by
      intro s1
      split
      · next h0 => exact call_succ ⟨h0, h2 h0⟩
      · exact ⟨s1, rfl, rfl, rfl⟩
    by_cases h0 : 0 ≤ m.recvCq
    · obtain ⟨s1, e1, e2, e3⟩ := call_succ (s := s) (a := a) (r := r) (m := m) ⟨h0, h1 h0⟩
      obtain ⟨s', e4, e5, e6⟩ := fin s1
      rw [if_pos h0, e1]
      exact ⟨s', e4, e5.trans e2, e6.trans e3⟩
    · rw [if_neg h0]
      exact fin s
  · exact ⟨_, rfl, rfl, rfl⟩

theorem ready_q {f : Nat → Nat → Nat → Option Nat} {a r : Nat} {c : Int} (h : ready f a r c) : -1 ≤ c := by
  rcases h with h | h | h <;> omega

theorem careful_ok {s : St} {past : List Op} {op : Op} (h : careful s past op) : op.queuesOk ∧ op.noGet := by
  cases op with
  | smsg a r q l rc | post a r q l rc | put a r q l rc | smsgResp a r q l rc | putResp a r q l rc | getResp a r q l rc =>
    exact ⟨⟨ready_q h.1, ready_q h.2⟩, trivial⟩
  | get a r q l rc => exact ⟨⟨ready_q h.2.1, ready_q h.2.2⟩, h.1⟩
  | _ => exact ⟨trivial, trivial⟩

/-- Under the discipline a step does not fail, unless it is no step at all. -/
theorem step_succ {node : Nat → Nat → Nat} {s : St} {past : List Op} (hg : Good node s past) (op : Op) (hc : careful s past op) :
    step node s op = .error .misuse ∨ ∃ s', step node s op = .ok s' ∧ s'.held = [] ∧ s'.lost = [] := by
  have comm : ∀ (a r : Nat) (p : Proc) (m : Msg),
      (m.kind = .smsg ∧ m.recver = r → (0 ≤ m.recvCq → ∃ f, p.cqs[m.recvCq.toNat]? = some (some f)) ∧ (0 ≤ m.sendCq → ∃ f, p.cqs[m.sendCq.toNat]? = some (some f))) →
      ∃ s', send node { s with ops := s.ops + 1 } a r p m = .ok s' ∧ s'.held = [] ∧ s'.lost = [] := by
    intro a r p m hm
    obtain ⟨s', h1, h2, h3⟩ := send_succ (node := node) (s := { s with ops := s.ops + 1 }) (a := a) hm
    exact ⟨s', h1, h2.trans hg.held, h3.trans hg.lost⟩
  cases op with
  | start a r =>
    simp only [step]
    cases hp : s.procs a r with
    | some p => exact absurd (hg.zero a r (by rw [hp]; rfl)).2 hc
    | none =>
      right
      simp only
      have hs := slot_rest { s.set a r (some ⟨[some defaultFn], []⟩) with pending := [] } (node a r, a, r)
      obtain ⟨s', h1, h2⟩ := drain_succ (n := node a r) (a := a) (r := r) (p := ⟨[some defaultFn], []⟩) s.pending
        (St.slot { s.set a r (some ⟨[some defaultFn], []⟩) with pending := [] } (node a r, a, r)) (fun x hx => (hg.inv.pending x hx).2) (by
          intro x hx ha hr
          obtain ⟨n, m⟩ := x
          simp only at ha hr ⊢
          by_cases hq : m.cq = noAck
          · exact .inl hq
          · right
            have := hg.way ⟨m.aid, m.rank, m.cq, m.op, m.kind.isAck⟩ (.inr (List.mem_flatMap.2 ⟨_, hx, by rw [oblig_eq n m (hg.inv.pending _ hx).2, count_at _ _ _ _ _ hq]; simp⟩))
            rcases this with h | h | h
            · simp only at h
              rw [h]
              exact ⟨by decide, defaultFn, rfl⟩
            · simp only [ha, hr] at h
              have h2 := h.2
              unfold St.fn at h2
              rw [hp] at h2
              cases h2
            · simp only [ha, hr] at h
              exact absurd h.1 hc)
      refine ⟨s', h1, ?_, ?_⟩
      · rw [h2, hs.2.2.2.2.1]; exact hg.held
      · rw [(drain_ok _ _ _ h1).2.2.2.2.1, hs.2.2.2.2.2.1]; exact hg.lost
  | finish a r =>
    simp only [step]
    cases hp : s.procs a r with
    | none => exact .inl rfl
    | some p => exact .inr ⟨_, rfl, by simp [hg.held], by simp [hg.held, hg.lost]⟩
  | allocId a r =>
    simp only [step]
    cases hp : s.procs a r with
    | none => exact .inl rfl
    | some p =>
      right
      simp only
      split <;> exact ⟨_, rfl, hg.held, hg.lost⟩
  | install a r id f =>
    simp only [step]
    cases hp : s.procs a r with
    | none => exact .inl rfl
    | some p =>
      right
      simp only
      have hl : id < p.cqs.length := hc p hp
      rw [if_neg (by omega), hg.held]
      exact ⟨_, rfl, hg.held, hg.lost⟩
  | dealloc a r id =>
    simp only [step]
    cases hp : s.procs a r with
    | none => exact .inl rfl
    | some p => exact .inr ⟨_, rfl, hg.held, hg.lost⟩
  | smsg a r q l rc =>
    simp only [step]
    cases hp : s.procs a r with
    | none => exact .inl rfl
    | some p =>
      right
      refine comm a r p _ (fun hs => ⟨fun h0 => ?_, fun h0 => ?_⟩)
      · have hqr : q = r := hs.2
        subst hqr
        exact (ready_fn hg hp hc.2 h0).2
      · exact (ready_fn hg hp hc.1 h0).2
  | post a r q l rc =>
    simp only [step]
    cases hp : s.procs a r with
    | none => exact .inl rfl
    | some p => exact .inr (comm a r p _ (fun hs => by simp [fresh] at hs))
  | put a r q l rc =>
    simp only [step]
    cases hp : s.procs a r with
    | none => exact .inl rfl
    | some p => exact .inr (comm a r p _ (fun hs => by simp [fresh] at hs))
  | get a r q l rc =>
    simp only [step]
    cases hp : s.procs a r with
    | none => exact .inl rfl
    | some p => exact .inr (comm a r p _ (fun hs => by simp [fresh] at hs))
  | smsgResp a r m l rc =>
    simp only [step]
    cases hp : s.procs a r with
    | none => exact .inl rfl
    | some p =>
      simp only
      split
      · right
        refine comm a r p _ (fun hs => ⟨fun h0 => ?_, fun h0 => ?_⟩)
        · have hqr : m.sender = r := hs.2
          have h2 := hc.2
          rw [hqr] at h2
          exact (ready_fn hg hp h2 h0).2
        · exact (ready_fn hg hp hc.1 h0).2
      · exact .inl rfl
  | putResp a r m l rc =>
    simp only [step]
    cases hp : s.procs a r with
    | none => exact .inl rfl
    | some p =>
      simp only
      split
      · exact .inr (comm a r p _ (fun hs => by simp at hs))
      · exact .inl rfl
  | getResp a r m l rc =>
    simp only [step]
    cases hp : s.procs a r with
    | none => exact .inl rfl
    | some p =>
      simp only
      split
      · exact .inr (comm a r p _ (fun hs => by simp at hs))
      · exact .inl rfl
  | arrive i =>
    simp only [step]
    cases hn : s.net[i]? with
    | none => exact .inl rfl
    | some x =>
      obtain ⟨n, m⟩ := x
      simp only
      right
      have hmem := List.mem_of_getElem? hn
      by_cases hk : m.kind = .getReq
      · rw [if_pos hk]; exact ⟨_, rfl, hg.held, hg.lost⟩
      · rw [if_neg hk]
        unfold server
        rw [target_eq m hk]
        have hnn := wf_node (hg.inv.net _ hmem) hk
        have hs := slot_rest { s with net := s.net.eraseIdx i } (n, m.aid, m.rank)
        simp only [← hnn, if_true]
        cases hp : s.procs m.aid m.rank with
        | none => exact ⟨_, rfl, by simp only [hs]; exact hg.held, by simp only [hs]; exact hg.lost⟩
        | some p =>
          simp only
          have : m.cq = noAck ∨ (0 ≤ m.cq ∧ ∃ f, p.cqs[m.cq.toNat]? = some (some f)) := by
            by_cases hq : m.cq = noAck
            · exact .inl hq
            · right
              have := hg.way ⟨m.aid, m.rank, m.cq, m.op, m.kind.isAck⟩ (.inl (List.mem_flatMap.2 ⟨_, hmem, by rw [oblig_eq n m hk, count_at _ _ _ _ _ hq]; simp⟩))
              rcases this with h | h | h
              · simp only at h
                rw [h]
                exact ⟨by decide, fn_isSome hp (hg.zero _ _ (by rw [hp]; rfl)).1⟩
              · exact ⟨h.1, fn_isSome hp h.2⟩
              · simp only [hp] at h
                exact absurd h.2 (by simp)
          obtain ⟨s', h1, h2⟩ := incoming_succ (s := St.slot { s with net := s.net.eraseIdx i } (n, m.aid, m.rank)) (a := m.aid) (r := m.rank) this
          refine ⟨s', h1, ?_, ?_⟩
          · rw [h2, hs.2.2.2.2.1]; exact hg.held
          · rw [(keeps_incoming h1).2.2.2.2.1, hs.2.2.2.2.2.1]; exact hg.lost

theorem mem_at {a r : Nat} {c : Int} {k : Nat} {b : Bool} {e : Compl} (h : e ∈ at_ a r c k b) : e.aid = a ∧ e.rank = r ∧ e.cq = c ∧ c ≠ noAck := by
  unfold at_ at h
  split at h
  · cases h
  · next hc =>
    rw [List.mem_singleton] at h
    rw [h]
    exact ⟨rfl, rfl, rfl, hc⟩

theorem ready_okE {s : St} {past : List Op} (hf : s.fn = fns past) {a r : Nat} {c : Int} {k : Nat} {b : Bool} {e : Compl} (hr : ready (fns past) a r c) (h : e ∈ at_ a r c k b) :
    okE s past e := by
  obtain ⟨h1, h2, h3, h4⟩ := mem_at h
  unfold okE
  rw [h1, h2, h3, hf]
  rcases hr with hr | hr | hr
  · exact absurd hr h4
  · exact .inl hr
  · exact .inr (.inl hr)

theorem expects_okE {s : St} {past : List Op} (hf : s.fn = fns past) {op : Op} (hc : careful s past op) {e : Compl} (h : e ∈ op.expects s.ops) : okE s past e := by
  cases op with
  | smsg a r q l rc | post a r q l rc | put a r q l rc | smsgResp a r q l rc | putResp a r q l rc =>
    exact (List.mem_append.1 h).elim (ready_okE hf hc.2) (ready_okE hf hc.1)
  | getResp a r q l rc => exact (List.mem_append.1 h).elim (ready_okE hf hc.1) (ready_okE hf hc.2)
  | get a r q l rc => exact (List.mem_append.1 h).elim (ready_okE hf hc.2.1) (ready_okE hf hc.2.2)
  | _ => cases h

/-- Whether a process is registered after a step. -/
def regStep (a' r' : Nat) (b : Bool) : Op → Bool
  | .start a r => if a' = a ∧ r' = r then true else b
  | .finish a r => if a' = a ∧ r' = r then false else b
  | _ => b

theorem step_reg {node : Nat → Nat → Nat} {s s' : St} (op : Op) (h : step node s op = .ok s') (a' r' : Nat) :
    (s'.procs a' r').isSome = regStep a' r' (s.procs a' r').isSome op := by
  have comm : ∀ (a r : Nat) (p : Proc) (m : Msg), s.procs a r = some p → send node { s with ops := s.ops + 1 } a r p m = .ok s' → (s'.procs a' r').isSome = (s.procs a' r').isSome := by
    intro a r p m hp hs
    rw [(send_log (s := { s with ops := s.ops + 1 }) hp hs).1]
  have hset : ∀ (a r : Nat) (p p' : Proc), s.procs a r = some p → ((s.set a r (some p')).procs a' r').isSome = (s.procs a' r').isSome := by
    intro a r p p' hp
    simp only [St.set]
    split
    · next hc => rw [hc.1, hc.2, hp]; rfl
    · rfl
  cases op with
  | start a r =>
    simp only [step] at h
    simp only [regStep]
    cases hp : s.procs a r with
    | some p => rw [hp] at h; cases h
    | none =>
      rw [hp] at h
      rw [(drain_ok _ _ _ h).2.1, (slot_rest _ _).1]
      simp only [St.set]
      split <;> rfl
  | finish a r =>
    simp only [step] at h
    simp only [regStep]
    cases hp : s.procs a r with
    | none => rw [hp] at h; cases h
    | some p =>
      rw [hp] at h
      cases h
      simp only [St.set]
      split <;> rfl
  | allocId a r =>
    simp only [step] at h
    simp only [regStep]
    cases hp : s.procs a r with
    | none => rw [hp] at h; cases h
    | some p =>
      rw [hp] at h
      simp only at h
      split at h <;> cases h <;> exact hset a r p _ hp
  | install a r id f =>
    simp only [step] at h
    simp only [regStep]
    cases hp : s.procs a r with
    | none => rw [hp] at h; cases h
    | some p =>
      rw [hp] at h
      simp only at h
      split at h
      · cases h
      · split at h
        · cases h
        · cases h; exact hset a r p _ hp
  | dealloc a r id =>
    simp only [step] at h
    simp only [regStep]
    cases hp : s.procs a r with
    | none => rw [hp] at h; cases h
    | some p => rw [hp] at h; cases h; exact hset a r p _ hp
  | smsg a r q l rc | post a r q l rc | put a r q l rc | get a r q l rc =>
    simp only [step] at h
    simp only [regStep]
    cases hp : s.procs a r with
    | none => rw [hp] at h; cases h
    | some p => rw [hp] at h; exact comm a r p _ hp h
  | smsgResp a r m l rc | putResp a r m l rc | getResp a r m l rc =>
    simp only [step] at h
    simp only [regStep]
    cases hp : s.procs a r with
    | none => rw [hp] at h; cases h
    | some p =>
      rw [hp] at h
      simp only at h
      split at h
      · exact comm a r p _ hp h
      · cases h
  | arrive i =>
    simp only [step] at h
    simp only [regStep]
    cases hn : s.net[i]? with
    | none => rw [hn] at h; cases h
    | some x =>
      obtain ⟨n, m⟩ := x
      rw [hn] at h
      simp only at h
      split at h
      · cases h; rfl
      · unfold server at h
        cases ht : m.target with
        | error e => rw [ht] at h; cases h
        | ok t =>
          rw [ht] at h
          simp only at h
          split at h
          · rw [(keeps_incoming h).1, (slot_rest _ _).1]
          · cases h; simp only [(slot_rest _ _).1]

/-- Functions are not taken away from a process that goes on. -/
theorem fn_mono {f : Nat → Nat → Nat → Option Nat} (op : Op) {a r c : Nat} (h : (f a r c).isSome = true) (hs : op ≠ .start a r) (hf : op ≠ .finish a r) :
    (fnStep f op a r c).isSome = true := by
  cases op with
  | start a' r' =>
    simp only [fnStep]
    rw [if_neg (fun hc => hs (by rw [hc.1, hc.2]))]
    exact h
  | finish a' r' =>
    simp only [fnStep]
    rw [if_neg (fun hc => hf (by rw [hc.1, hc.2]))]
    exact h
  | install a' r' id g =>
    simp only [fnStep]
    split
    · rfl
    · exact h
  | _ => exact h

theorem step_good {node : Nat → Nat → Nat} {s s' : St} {past : List Op} (hg : Good node s past) (op : Op) (hc : careful s past op) (h : step node s op = .ok s') :
    Good node s' (past ++ [op]) := by
  obtain ⟨hq, hn⟩ := careful_ok hc
  obtain ⟨hi, _⟩ := step_inv hg.inv op hq hn h
  obtain ⟨hf, new, hl, _⟩ := step_fn op h
  have hr := step_reg op h
  have hheld : s'.held = [] ∧ s'.lost = [] := by
    rcases step_succ hg op hc with e | ⟨s1, e, h1, h2⟩
    · rw [h] at e; cases e
    · rw [h] at e; cases e; exact ⟨h1, h2⟩
  have hfn : s'.fn = fns (past ++ [op]) := by
    rw [hf, hg.fn, fns, fns, List.foldl_append]
    rfl
  have mono : ∀ e, okE s past e → okE s' (past ++ [op]) e := by
    intro e he
    unfold okE at he ⊢
    rcases he with he | ⟨h0, he⟩ | ⟨he1, he2⟩
    · exact .inl he
    · have hreg : (s.procs e.aid e.rank).isSome = true := by
        obtain ⟨f, hf'⟩ := Option.isSome_iff_exists.1 he
        obtain ⟨p, hp, _⟩ := fn_some.1 hf'
        rw [hp]; rfl
      by_cases hfin : op = .finish e.aid e.rank
      · right; right
        refine ⟨by rw [List.mem_append]; exact .inl (hg.zero _ _ hreg).2, ?_⟩
        have := hr e.aid e.rank
        rw [hfin] at this
        simpa [regStep] using this
      · right; left
        refine ⟨h0, ?_⟩
        rw [hf]
        refine fn_mono op he ?_ hfin
        intro hst
        rw [hst] at hc
        exact hc (hg.zero _ _ hreg).2
    · right; right
      refine ⟨by rw [List.mem_append]; exact .inl he1, ?_⟩
      have := hr e.aid e.rank
      rw [he2] at this
      cases hop : op with
      | start a r =>
        rw [hop] at this hc
        simp only [regStep] at this
        rw [if_neg] at this
        · simpa [regStep] using this
        · intro hz
          rw [hz.1, hz.2] at he1
          exact hc he1
      | finish a r =>
        rw [hop] at this
        simp only [regStep, Option.isSome_none, ite_self] at this
        simpa [regStep] using this
      | _ =>
        rw [hop] at this
        simpa [regStep] using this
  refine ⟨⟨List.Perm.refl _, hi.net, hi.pending, hi.log, hi.reg, hi.slots, hi.slots'⟩, hheld.1, hheld.2, hfn, ?_, ?_⟩
  · intro a r ha
    have hra := hr a r
    rw [ha] at hra
    rw [hf]
    by_cases hst : op = .start a r
    · rw [hst]
      exact ⟨by simp [fnStep], by simp⟩
    · by_cases hfin : op = .finish a r
      · rw [hfin] at hra
        simp [regStep] at hra
      · have hold : (s.procs a r).isSome = true := by
          cases hop : op with
          | start a' r' =>
            rw [hop] at hra hst
            simp only [regStep] at hra
            rw [if_neg (fun hz => hst (by rw [hz.1, hz.2]))] at hra
            exact hra.symm
          | finish a' r' =>
            rw [hop] at hra hfin
            simp only [regStep] at hra
            rw [if_neg (fun hz => hfin (by rw [hz.1, hz.2]))] at hra
            exact hra.symm
          | _ =>
            rw [hop] at hra
            exact hra.symm
        obtain ⟨z1, z2⟩ := hg.zero a r hold
        exact ⟨fn_mono op z1 hst hfin, by rw [List.mem_append]; exact .inl z2⟩
  · intro e he
    apply mono
    have hcount := List.perm_iff_count.1 hi.perm e
    simp only [total, hl, List.map_append, List.count_append, hheld.1, hheld.2, hg.held, hg.lost, List.map_nil, List.count_nil] at hcount
    have hpos : 0 < List.count e (s'.net.flatMap oblig) + List.count e (s'.pending.flatMap oblig) := by
      rcases he with he | he
      · have := List.count_pos_iff.2 he; omega
      · have := List.count_pos_iff.2 he; omega
    have : 0 < List.count e (s.net.flatMap oblig) ∨ 0 < List.count e (s.pending.flatMap oblig) ∨ 0 < List.count e (op.expects s.ops) := by omega
    rcases this with h1 | h1 | h1
    · exact hg.way e (.inl (List.count_pos_iff.1 h1))
    · exact hg.way e (.inr (List.count_pos_iff.1 h1))
    · exact expects_okE hg.fn hc (List.count_pos_iff.1 h1)

theorem run_careful {node : Nat → Nat → Nat} : ∀ (ops : List Op) (s : St) (past : List Op), Good node s past → carefulRun node s past ops →
    run node s ops = .error .misuse ∨ ∃ s', run node s ops = .ok s' ∧ s'.held = [] ∧ s'.lost = []
  | [], s, past, hg, _ => .inr ⟨s, rfl, hg.held, hg.lost⟩
  | op :: ops, s, past, hg, hc => by
    rw [run]
    rcases step_succ hg op hc.1 with e | ⟨s1, e, _, _⟩
    · rw [e]; exact .inl rfl
    · rw [e]
      exact run_careful ops s1 _ (step_good hg op hc.1 e) (hc.2 s1 e)

/-- Under the discipline no run fails, whatever the order of arrivals: no function is called that does not exist, no
queue outside the vector is used, no server aborts, and nothing is held or lost.  (`misuse` is the answer of the model to
calls of processes that are not registered and to arrivals of messages that do not exist.) -/
theorem C121_no_failure_partial (node : Nat → Nat → Nat) (ops : List Op) (hc : carefulRun node St.init [] ops) :
    run node St.init ops = .error .misuse ∨ ∃ s, run node St.init ops = .ok s ∧ s.held = [] ∧ s.lost = [] := by
  refine run_careful ops _ [] ⟨?_, rfl, rfl, ?_, ?_, ?_⟩ hc
  · have := inv_init node
    exact ⟨List.Perm.refl _, this.net, this.pending, this.log, this.reg, this.slots, this.slots'⟩
  · funext a r c; rfl
  · intro a r h; cases h
  · intro e he; rcases he with he | he <;> cases he

/-- Two processes; a queue is installed and then named by the other process. -/
def two : List Op := [.start 0 0, .start 0 1, .allocId 0 1, .install 0 1 1 7, .smsg 0 0 1 0 1, .arrive 1, .arrive 0]

example : carefulRun (fun _ r => r) St.init [] two := by
  refine ⟨by simp [careful], fun s1 h1 => ⟨by simp [careful], fun s2 h2 => ⟨trivial, fun s3 h3 => ⟨?_, fun s4 h4 => ⟨?_, fun s5 h5 => ⟨trivial, fun s6 h6 => ⟨trivial, fun _ _ => trivial⟩⟩⟩⟩⟩⟩⟩
  · have e : run (fun _ r => r) St.init [.start 0 0, .start 0 1, .allocId 0 1] = .ok s3 := by
      simp only [run, h1, h2, h3]
    cases e
    intro p hp
    cases hp
    decide
  · refine ⟨.inr (.inl rfl), .inr (.inr ⟨by decide, by decide⟩)⟩

example : (run (fun _ r => r) St.init two).toOption.map (fun s => s.log.map (fun d => (d.rank, d.cq, d.handler))) = some [(1, 1, 7), (0, 0, 0)] := by decide

/-! ### What the code does otherwise -/

/-- Is it this failure? -/
def failsWith (e : Fail) : Except Fail St → Bool
  | .error e' => e' == e
  | .ok _ => false

/-- A get from another process: nobody ever gets anything, the data waits at the node of the getter for the owner. -/
theorem C121_get_refuted : ∃ (node : Nat → Nat → Nat) (ops : List Op) (s : St), run node St.init ops = .ok s ∧
    expected 0 ops = [⟨0, 0, 0, 0, false⟩, ⟨0, 1, 0, 0, true⟩] ∧ s.log = [] ∧ s.net = [] ∧ s.held = [] ∧ s.pending.map (fun x => (x.1, x.2.rank)) = [(1, 0), (0, 1)] ∧
    (s.procs 0 0).isSome = true ∧ (s.procs 0 1).isSome = true :=
  ⟨fun _ r => r, [.start 0 0, .start 0 1, .get 0 0 1 0 0, .arrive 0, .arrive 0, .arrive 0], _, rfl, by decide, rfl, rfl, rfl, rfl, rfl, rfl⟩

/-- A get from another process of the same node: each side gets the completion of the other. -/
theorem C121_get_node_refuted : ∃ (node : Nat → Nat → Nat) (ops : List Op) (s : St), run node St.init ops = .ok s ∧ s.net = [] ∧ s.pending = [] ∧ s.held = [] ∧
    expected 0 ops = [⟨0, 0, 0, 0, false⟩, ⟨0, 1, 0, 0, true⟩] ∧ s.log.map Deliv.key = [⟨0, 0, 0, 0, true⟩, ⟨0, 1, 0, 0, false⟩] :=
  ⟨fun _ _ => 0, [.start 0 0, .start 0 1, .get 0 0 1 0 0, .arrive 0, .arrive 0], _, rfl, rfl, rfl, rfl, by decide, by decide⟩

/-- A message that comes before its queue exists is held; installing the queue then calls a function that was moved
away. -/
theorem C121_held_refuted : ∃ (node : Nat → Nat → Nat) (ops : List Op) (s : St), run node St.init ops = .ok s ∧ s.held.length = 1 ∧
    failsWith .badCall (run node St.init (ops ++ [.allocId 0 1, .install 0 1 1 7])) = true :=
  ⟨fun _ r => r, [.start 0 0, .start 0 1, .smsg 0 0 1 (-1) 1, .arrive 0], _, rfl, rfl, by decide⟩

/-- A message that comes between the allocation of an id and that of its function calls an empty function. -/
theorem C121_gap_refuted : failsWith .badCall (run (fun _ r => r) St.init
    [.start 0 0, .start 0 1, .smsg 0 0 1 (-1) 1, .allocId 0 1, .arrive 0, .install 0 1 1 7]) = true := by decide

/-- A message of a process to itself on a queue that does not exist reads outside the vector of queues, while the
same message from another process is held. -/
theorem C121_self_refuted : failsWith .outside (run (fun _ r => r) St.init [.start 0 0, .smsg 0 0 0 (-1) 1]) = true ∧
    (run (fun _ r => r) St.init [.start 0 0, .start 0 1, .smsg 0 1 0 (-1) 1, .arrive 0]).toOption.map (fun s => s.held.length) = some 1 := by decide

/-- A queue that was given back still gets messages, also after its id was given out again: they go to the old
function. -/
theorem C121_stale_refuted : ∃ (node : Nat → Nat → Nat) (ops : List Op) (s : St), run node St.init (ops ++ [.dealloc 0 1 1, .allocId 0 1, .smsg 0 0 1 (-1) 1, .arrive 0]) = .ok s ∧
    s.log.map (fun d => (d.rank, d.cq, d.handler)) = [(1, 1, 7)] :=
  ⟨fun _ r => r, [.start 0 0, .start 0 1, .allocId 0 1, .install 0 1 1 7], _, rfl, rfl⟩

end SST.Sumi.Tp
