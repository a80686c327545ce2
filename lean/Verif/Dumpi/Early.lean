import Verif.Dumpi.ReplayProps
set_option autoImplicit false
/-!
# C124: ending the replay of a DUMPI trace early

`parsedumpi_terminate_count`, "the number of global collectives to run, then terminate"
(parsedumpi.cc:64-65, 86): `K.limit`, and `count` in `Replay` (parsedumpi_callbacks.h:112-117,
parsedumpi_callbacks.cc:1405).
-/

namespace Verif.Dumpi

/-- A collective on MPI_COMM_WORLD. -/
def global : Body → Bool
  | .coll _ _ _ c _ => c = 0
  | .barrier c => c = 0
  | _ => false

/-- How many collectives on MPI_COMM_WORLD a program has. -/
def globals : List Op → Nat
  | [] => 0
  | op :: ops => (if global op.body then 1 else 0) + globals ops

/-- A collective that is not a barrier. -/
def isColl : Body → Bool
  | .coll _ _ _ _ _ => true
  | _ => false

/-- The collectives on MPI_COMM_WORLD in what a replay does. -/
def worldOuts : List Out → Nat
  | [] => 0
  | .coll _ _ _ 0 :: l => 1 + worldOuts l
  | .barrier 0 :: l => 1 + worldOuts l
  | _ :: l => worldOuts l

/-- The program and the end of the last call after some calls. -/
def psAfter (k : K) : PS → List Op → PS
  | ps, [] => ps
  | ps, op :: ops => psAfter k (does k ps op.body).2 ops
/-- The end of the last call since MPI_Init after some calls. -/
def lastAll : Option Clock → List Op → Option Clock
  | last, [] => last
  | last, op :: ops => lastAll (lastAfter last op) ops

theorem faithful_append (k : K) (a b : List Op) : ∀ (ps : PS) (last : Option Clock),
    faithful k ps last (a ++ b) = faithful k ps last a ++ faithful k (psAfter k ps a) (lastAll last a) b := by
  induction a with
  | nil => intro ps last; rfl
  | cons op a ih => intro ps last; simp only [List.cons_append, faithful, psAfter, lastAll, ih, List.append_assoc]

theorem record_append (k : K) (a b : List Op) : ∀ (ps : PS),
    record k ps (a ++ b) = record k ps a ++ record k (psAfter k ps a) b := by
  induction a with
  | nil => intro ps; rfl
  | cons op a ih => intro ps; simp only [List.cons_append, record, psAfter, ih]

theorem legal_append (k : K) (a b : List Op) : ∀ (ps : PS) (last : Option Clock), Legal k ps last (a ++ b) →
    Legal k ps last a ∧ Legal k (psAfter k ps a) (lastAll last a) b := by
  induction a with
  | nil => intro ps last h; exact ⟨trivial, h⟩
  | cons op a ih =>
    intro ps last h
    obtain ⟨h1, h2, h3, h4, h5⟩ := h
    obtain ⟨x, y⟩ := ih _ _ h5
    exact ⟨⟨h1, h2, h3, h4, x⟩, y⟩

theorem run_append (k : K) (a b : List Entry) : ∀ (s s' : St), run k a s = (s', none) → run k (a ++ b) s = run k b s' := by
  induction a with
  | nil => intro s s' h; cases h; rfl
  | cons e a ih =>
    intro s s' h
    simp only [run, List.cons_append] at h ⊢
    split at h
    · exact ih _ _ h
    · cases h

/-- The world is communicator 0 and keeps its handle. -/
def W (k : K) (ps : PS) : Prop := look 0 ps.comms = some k.commWorld ∧ 2 ≤ ps.ncomm

theorem comms_finish (r : Option Nat) (ps : PS) : (finishReq r ps).2.comms = ps.comms ∧ (finishReq r ps).2.ncomm = ps.ncomm := by
  unfold finishReq
  split
  · exact ⟨rfl, rfl⟩
  · split <;> exact ⟨rfl, rfl⟩

theorem comms_start (r : Nat) (ps : PS) : (startReq r ps).2.comms = ps.comms ∧ (startReq r ps).2.ncomm = ps.ncomm := by
  unfold startReq
  split <;> exact ⟨rfl, rfl⟩

theorem comms_collect {α : Type} (f : α → PS → List Out × PS)
    (h : ∀ a ps, (f a ps).2.comms = ps.comms ∧ (f a ps).2.ncomm = ps.ncomm) (l : List α) :
    ∀ ps, (collect f l ps).2.comms = ps.comms ∧ (collect f l ps).2.ncomm = ps.ncomm := by
  induction l with
  | nil => intro ps; exact ⟨rfl, rfl⟩
  | cons a l ih =>
    intro ps
    simp only [collect]
    exact ⟨by rw [(ih _).1, (h a ps).1], by rw [(ih _).2, (h a ps).2]⟩

theorem w_does {k : K} {ps : PS} (h : W k ps) (b : Body) (ha : allowed k ps b) : W k (does k ps b).2 := by
  have same : ∀ ps' : PS, ps'.comms = ps.comms ∧ ps'.ncomm = ps.ncomm → W k ps' := by
    intro ps' e; unfold W; rw [e.1, e.2]; exact h
  have new : ∀ (id : Int), W k { ps with comms := (ps.ncomm, id) :: ps.comms, ncomm := ps.ncomm + 1 } := by
    intro id
    have h2 := h.2
    refine ⟨?_, by simp only; omega⟩
    simp only [look_cons]
    rw [if_neg (by omega)]
    exact h.1
  cases b with
  | start r => exact same _ (comms_start r ps)
  | startall rs => exact same _ (comms_collect _ comms_start rs ps)
  | complete way rs fin => exact same _ (comms_collect _ (fun i ps => comms_finish _ ps) fin ps)
  | commDup c id => exact new id
  | commCreate c g id => exact new id
  | commSplit c color key id => exact new id
  | commFree c =>
    refine ⟨?_, h.2⟩
    simp only [does, look_del]
    rw [if_neg (Ne.symm ha.2)]
    exact h.1
  | _ => exact h

theorem world_iff {k : K} {ps : PS} {s : St} (h : R k ps s) (hw : W k ps) {c : Nat} (hc : commOk ps c) :
    commId ps c = k.commWorld ↔ c = 0 := by
  obtain ⟨id, hid⟩ := Option.isSome_iff_exists.mp (show (look c ps.comms).isSome = true from hc)
  constructor
  · intro he
    simp only [commId, hid, Option.getD_some] at he
    by_cases h0 : c = 0
    · exact h0
    · exact absurd he ((h.comm c id hid).2 h0)
  · intro h0
    subst h0
    simp [commId, hw.1]

/-- What the count does. -/
theorem count_go {k : K} {ps : PS} {s : St} (h : R k ps s) (hw : W k ps) {b : Body} (ha : allowed k ps b)
    (hn : isColl b = true → s.ncoll ≠ k.limit) :
    ∃ sc, count k (recOf k ps b) s = .ok sc ∧ sc = { s with ncoll := sc.ncoll } ∧
      sc.ncoll = s.ncoll + if global b then 1 else 0 := by
  cases b with
  | barrier c =>
    have := world_iff h hw (show commOk ps c from ha)
    simp only [recOf, count, global]
    by_cases hc : c = 0
    · rw [if_pos (this.mpr hc)]
      exact ⟨_, rfl, rfl, by simp [hc]⟩
    · rw [if_neg (fun x => hc (this.mp x))]
      exact ⟨_, rfl, rfl, by simp [hc]⟩
  | coll kind args root c atRoot =>
    have := world_iff h hw ha.2.1
    simp only [recOf, count, global]
    rw [if_neg (hn rfl)]
    by_cases hc : c = 0
    · rw [if_pos (this.mpr hc)]
      exact ⟨_, rfl, rfl, by simp [hc]⟩
    · rw [if_neg (fun x => hc (this.mp x))]
      exact ⟨_, rfl, rfl, by simp [hc]⟩
  | complete way rs fin => cases way <;> exact ⟨s, rfl, rfl, by simp [global]⟩
  | _ => exact ⟨s, rfl, rfl, by simp [global]⟩

theorem step_go {k : K} (hk : Sane k) {ps : PS} {last : Option Clock} {s : St} {op : Op} (h : R k ps s) (hw : W k ps)
    (ht : Timed last s) (hn : isColl op.body = true → s.ncoll ≠ k.limit) (ha : allowed k ps op.body)
    (h1 : clockOk op.start) (h2 : clockOk op.stop) (h3 : after last op.start) :
    ∃ s', step k ⟨recOf k ps op.body, op.start, op.stop, false⟩ s = .ok s' ∧ R k (does k ps op.body).2 s' ∧
      W k (does k ps op.body).2 ∧ Timed (lastAfter last op) s' ∧
      s'.ncoll = s.ncoll + (if global op.body then 1 else 0) ∧
      s'.out = s.out ++ gap k last op.start ++ (does k ps op.body).1 := by
  obtain ⟨sc, e1, q1, n1⟩ := count_go h hw ha hn
  obtain ⟨s', a, b, c, d, e⟩ := step_count hk h ht e1 q1 ha h1 h2 h3
  exact ⟨s', a, b, w_does hw _ ha, c, by rw [d, n1], e⟩

theorem step_stop {k : K} {ps : PS} {s : St} {op : Op} (hc : isColl op.body = true) (hn : s.ncoll = k.limit) :
    step k ⟨recOf k ps op.body, op.start, op.stop, false⟩ s = .error .early := by
  cases hb : op.body with
  | coll kind args root c atRoot => simp only [recOf, step, count, hn, if_true, bind, Except.bind]
  | _ => rw [hb] at hc; cases hc

/-- Calls that stay below the count. -/
theorem run_below {k : K} (hk : Sane k) (ops : List Op) :
    ∀ (ps : PS) (last : Option Clock) (s : St), R k ps s → W k ps → Timed last s →
      (s.ncoll + globals ops < k.limit ∨ k.limit < s.ncoll) → Legal k ps last ops →
      ∃ s', run k (record k ps ops) s = (s', none) ∧ s'.out = s.out ++ faithful k ps last ops ∧
        R k (psAfter k ps ops) s' ∧ W k (psAfter k ps ops) ∧ Timed (lastAll last ops) s' ∧
        s'.ncoll = s.ncoll + globals ops := by
  induction ops with
  | nil => intro ps last s h hw ht _ _; exact ⟨s, rfl, by simp [faithful], h, hw, ht, rfl⟩
  | cons op ops ih =>
    intro ps last s h hw ht hl hleg
    obtain ⟨a1, a2, a3, a4, a5⟩ := hleg
    simp only [globals] at hl
    obtain ⟨s1, e1, r1, w1, t1, n1, o1⟩ := step_go hk h hw ht (by intro _; omega) a1 a2 a3 a4
    obtain ⟨s2, e2, o2, r2, w2, t2, n2⟩ := ih _ _ s1 r1 w1 t1 (by omega) a5
    refine ⟨s2, ?_, ?_, r2, w2, t2, ?_⟩
    · simp only [record, run, e1]; exact e2
    · rw [o2, o1]; simp [faithful]
    · simp only [globals]; omega

theorem w_init (k : K) : W k (PS.init k) := ⟨by simp [PS.init, look], by simp [PS.init]⟩

/-- C124.  With fewer collectives on MPI_COMM_WORLD than the count, the replay goes on to the end of the
trace. -/
theorem C124_below (k : K) (ops : List Op) (hk : Sane k) (hl : Legal k (PS.init k) none ops)
    (hn : globals ops < k.limit) :
    replay k (record k (PS.init k) ops) = (faithful k (PS.init k) none ops, none) := by
  obtain ⟨s, e, o, _⟩ := run_below hk ops (PS.init k) none (St.init k) (r_init k) (w_init k) rfl
    (.inl (by simp only [St.init]; omega)) hl
  simp only [replay, e, o]
  simp [St.init]

theorem run_stop {k : K} (hk : Sane k) (ops : List Op) :
    ∀ (ps : PS) (last : Option Clock) (s : St), R k ps s → W k ps → Timed last s →
      s.ncoll ≤ k.limit → k.limit < s.ncoll + globals ops → Legal k ps last ops → (∀ op ∈ ops, op.body ≠ .barrier 0) →
      ∃ pre op post s', ops = pre ++ op :: post ∧ s.ncoll + globals pre = k.limit ∧
        run k (record k ps ops) s = (s', some .early) ∧ s'.out = s.out ++ faithful k ps last pre := by
  induction ops with
  | nil => intro ps last s _ _ _ h1 h2 _ _; simp only [globals] at h2; omega
  | cons op ops ih =>
    intro ps last s h hw ht h1 h2 hleg hb
    obtain ⟨a1, a2, a3, a4, a5⟩ := hleg
    simp only [globals] at h2
    by_cases hc : isColl op.body = true ∧ s.ncoll = k.limit
    · refine ⟨[], op, ops, s, rfl, by simp [globals, hc.2], ?_, by simp [faithful]⟩
      simp only [record, run, step_stop hc.1 hc.2]
    · have hc' : isColl op.body = true → s.ncoll ≠ k.limit := fun x y => hc ⟨x, y⟩
      obtain ⟨s1, e1, r1, w1, t1, n1, o1⟩ := step_go hk h hw ht hc' a1 a2 a3 a4
      have hle : s1.ncoll ≤ k.limit := by
        rw [n1]
        split
        · rename_i hg
          have : isColl op.body = true := by
            cases hbd : op.body with
            | barrier c =>
              rw [hbd] at hg
              have : c = 0 := by simpa [global] using hg
              subst this
              exact absurd hbd (hb op (List.mem_cons_self ..))
            | coll kind args root c atRoot => rfl
            | _ => rw [hbd] at hg; cases hg
          have := hc' this
          omega
        · omega
      obtain ⟨pre, o, post, s2, b1, b2, b3, b4⟩ := ih _ _ s1 r1 w1 t1 hle (by omega) a5
        (fun x hx => hb x (List.mem_cons_of_mem _ hx))
      refine ⟨op :: pre, o, post, s2, by rw [b1]; rfl, ?_, ?_, ?_⟩
      · simp only [globals]; omega
      · simp only [record, run, e1]; exact b3
      · rw [b4, o1]; simp [faithful]

theorem wo_append (a b : List Out) : worldOuts (a ++ b) = worldOuts a + worldOuts b := by
  induction a with
  | nil => simp [worldOuts]
  | cons x a ih =>
    cases x with
    | barrier c => cases c <;> simp only [List.cons_append, worldOuts, ih] <;> omega
    | coll kind bs root c => cases c <;> simp only [List.cons_append, worldOuts, ih] <;> omega
    | _ => simp only [List.cons_append, worldOuts, ih]

theorem wo_finish (r : Option Nat) (ps : PS) : worldOuts (finishReq r ps).1 = 0 := by
  unfold finishReq
  split
  · rfl
  · split
    · dsimp only; split <;> rfl
    · rfl

theorem wo_start (r : Nat) (ps : PS) : worldOuts (startReq r ps).1 = 0 := by
  unfold startReq
  split <;> rfl

theorem wo_collect {α : Type} (f : α → PS → List Out × PS) (h : ∀ a ps, worldOuts (f a ps).1 = 0) (l : List α) :
    ∀ ps, worldOuts (collect f l ps).1 = 0 := by
  induction l with
  | nil => intro ps; rfl
  | cons a l ih => intro ps; simp only [collect, wo_append, h, ih]

theorem wo_does (k : K) (ps : PS) (b : Body) : worldOuts (does k ps b).1 = if global b then 1 else 0 := by
  cases b with
  | start r => exact wo_start r ps
  | startall rs => exact wo_collect _ wo_start rs ps
  | complete way rs fin => exact wo_collect _ (fun i ps => wo_finish _ ps) fin ps
  | barrier c => cases c <;> simp [does, worldOuts, global]
  | coll kind args root c atRoot => cases c <;> simp [does, worldOuts, global]
  | _ => rfl

theorem wo_faithful (k : K) (ops : List Op) : ∀ (ps : PS) (last : Option Clock),
    worldOuts (faithful k ps last ops) = globals ops := by
  induction ops with
  | nil => intro ps last; rfl
  | cons op ops ih =>
    intro ps last
    have hg : worldOuts (gap k last op.start) = 0 := by unfold gap; split <;> rfl
    simp only [faithful, wo_append, wo_does, ih, globals, hg]
    omega

/-- C124.  A program with more collectives on MPI_COMM_WORLD than the count, none of which is a barrier, is
replayed up to a call, before which there were just as many as the count, and then MPI is
finalized: so every rank takes part in as many of them as the count.  Missing: barriers, which the theorem below refutes. -/
theorem C124_stops_partial (k : K) (ops : List Op) (hk : Sane k) (hl : Legal k (PS.init k) none ops)
    (hb : ∀ op ∈ ops, op.body ≠ .barrier 0) (hn : k.limit < globals ops) :
    ∃ pre op post, ops = pre ++ op :: post ∧ globals pre = k.limit ∧
      replay k (record k (PS.init k) ops) = (faithful k (PS.init k) none pre ++ [.finalize], some .early) ∧
      worldOuts (replay k (record k (PS.init k) ops)).1 = k.limit := by
  obtain ⟨pre, op, post, s, a, b, c, d⟩ := run_stop hk ops (PS.init k) none (St.init k) (r_init k) (w_init k) rfl
    (by simp [St.init]) (by simp only [St.init]; omega) hl hb
  have b' : globals pre = k.limit := by simpa [St.init] using b
  have he : replay k (record k (PS.init k) ops) = (faithful k (PS.init k) none pre ++ [.finalize], some .early) := by
    simp only [replay, c, d]
    simp [St.init]
  refine ⟨pre, op, post, a, b', he, ?_⟩
  rw [he]
  simp only [wo_append, wo_faithful, b']
  rfl

/-- A collective on the world, for a demonstration. -/
def demoColl (t : Int) : Op := ⟨.coll .allreduce [([1], .base 14)] 0 0 true, ⟨t, 0⟩, ⟨t, 0⟩⟩

example : Legal { demoK with limit := 2 } (PS.init demoK) none
      [⟨.init, ⟨0, 0⟩, ⟨0, 0⟩⟩, demoColl 1, demoColl 2, demoColl 3, ⟨.finalize, ⟨4, 0⟩, ⟨4, 0⟩⟩] ∧
    (2 : Nat) < globals [⟨.init, ⟨0, 0⟩, ⟨0, 0⟩⟩, demoColl 1, demoColl 2, demoColl 3, ⟨.finalize, ⟨4, 0⟩, ⟨4, 0⟩⟩] ∧
    (replay { demoK with limit := 2 } (record { demoK with limit := 2 } (PS.init demoK)
      [⟨.init, ⟨0, 0⟩, ⟨0, 0⟩⟩, demoColl 1, demoColl 2, demoColl 3, ⟨.finalize, ⟨4, 0⟩, ⟨4, 0⟩⟩])).1 =
      [.init, .compute 1000000000, .coll .allreduce [[8]] 0 0, .compute 1000000000, .coll .allreduce [[8]] 0 0,
       .finalize] := by decide +kernel

/-- C124.  If the first collective after as many as the count is a barrier, the replay never ends early: it
goes on to the end of the trace, whatever follows. -/
theorem C124_barrier_refuted (k : K) (q post : List Op) (o b : Op) (hk : Sane k)
    (hl : Legal k (PS.init k) none (q ++ o :: b :: post)) (hq : globals q + 1 = k.limit) (ho : global o.body = true)
    (hb : b.body = .barrier 0) :
    replay k (record k (PS.init k) (q ++ o :: b :: post)) =
      (faithful k (PS.init k) none (q ++ o :: b :: post), none) := by
  obtain ⟨l1, l2⟩ := legal_append k q (o :: b :: post) _ _ hl
  obtain ⟨s, e, out, r, w, t, n⟩ := run_below hk q (PS.init k) none (St.init k) (r_init k) (w_init k) rfl
    (.inl (by simp only [St.init]; omega)) l1
  have n' : s.ncoll = globals q := by simpa [St.init] using n
  obtain ⟨a1, a2, a3, a4, a5⟩ := l2
  obtain ⟨s1, e1, r1, w1, t1, n1, o1⟩ := step_go hk r w t (by intro _; omega) a1 a2 a3 a4
  obtain ⟨b1, b2, b3, b4, b5⟩ := a5
  obtain ⟨s2, e2, r2, w2, t2, n2, o2⟩ := step_go hk r1 w1 t1 (by intro hc; rw [hb] at hc; cases hc) b1 b2 b3 b4
  have hg : global b.body = true := by rw [hb]; rfl
  rw [if_pos ho] at n1
  rw [if_pos hg] at n2
  obtain ⟨s3, e3, o3, _⟩ := run_below hk post _ _ s2 r2 w2 t2 (.inr (by omega)) b5
  have hrun : run k (record k (PS.init k) (q ++ o :: b :: post)) (St.init k) = (s3, none) := by
    rw [record_append, run_append k _ _ _ _ e]
    simp only [record, run, e1, e2]
    exact e3
  have hout : s3.out = faithful k (PS.init k) none (q ++ o :: b :: post) := by
    rw [o3, o2, o1, out, faithful_append]
    simp [faithful, St.init]
  simp only [replay, hrun, hout]

/-- With a count of one: two barriers, and ten collectives that should not be replayed. -/
example : Legal { demoK with limit := 1 } (PS.init demoK) none
      ([⟨.init, ⟨0, 0⟩, ⟨0, 0⟩⟩] ++ ⟨.barrier 0, ⟨1, 0⟩, ⟨1, 0⟩⟩ :: ⟨.barrier 0, ⟨1, 0⟩, ⟨1, 0⟩⟩ ::
        List.replicate 10 (demoColl 2)) ∧
    worldOuts (replay { demoK with limit := 1 } (record { demoK with limit := 1 } (PS.init demoK)
      ([⟨.init, ⟨0, 0⟩, ⟨0, 0⟩⟩] ++ ⟨.barrier 0, ⟨1, 0⟩, ⟨1, 0⟩⟩ :: ⟨.barrier 0, ⟨1, 0⟩, ⟨1, 0⟩⟩ ::
        List.replicate 10 (demoColl 2)))).1 = 12 := by decide +kernel

/-- Rank 0: a collective on the world, one on a communicator of its own, and a message to rank 1. -/
def rank0 : List Op :=
  [⟨.init, ⟨0, 0⟩, ⟨0, 0⟩⟩, ⟨.commSplit 0 0 0 4, ⟨0, 0⟩, ⟨0, 0⟩⟩, demoColl 1,
   ⟨.coll .bcast [([1], .base 14)] 0 2 true, ⟨2, 0⟩, ⟨2, 0⟩⟩,
   ⟨.send 1 (.base 14) 1 7 0, ⟨3, 0⟩, ⟨3, 0⟩⟩, demoColl 4, ⟨.finalize, ⟨5, 0⟩, ⟨5, 0⟩⟩]

/-- Rank 1: the same collectives on the world, and it receives the message. -/
def rank1 : List Op :=
  [⟨.init, ⟨0, 0⟩, ⟨0, 0⟩⟩, ⟨.commSplit 0 1 0 4, ⟨0, 0⟩, ⟨0, 0⟩⟩, demoColl 1,
   ⟨.recv 1 (.base 14) (some 0) (some 7) 0, ⟨3, 0⟩, ⟨3, 0⟩⟩, demoColl 4, ⟨.finalize, ⟨5, 0⟩, ⟨5, 0⟩⟩]

/-- C124.  The ranks do not end at the same place: with a count of one, rank 0 ends at its collective on
another communicator, before it sends; rank 1 waits for the message. -/
theorem C124_ranks_refuted :
    let k := { demoK with limit := 1 }
    Legal k (PS.init k) none rank0 ∧ Legal k (PS.init k) none rank1 ∧
    (replay k (record k (PS.init k) rank0)).1.all (fun o => match o with | .post _ _ => false | _ => true) = true ∧
    Out.post 0 ⟨false, 8, 0, 7, 0⟩ ∈ (replay k (record k (PS.init k) rank1)).1 ∧
    Out.await 0 ∈ (replay k (record k (PS.init k) rank1)).1 := by decide +kernel

end Verif.Dumpi
