import Verif.Mpi.RequestInv

/-!
C115: the life of MPI requests.  The specification (`Held`, `lastAct`, `doneIn`, `Good`) is in
`RequestLemmas` and speaks only of the calls made and their results.
-/
set_option autoImplicit false
namespace SST.Mpi.Req

/-! ### Examples -/

/-- Arguments of the examples: partner `p`. -/
def arg (p : Int) : Args := ⟨7, 3, 0, p, 5, 0⟩

/-- A status of the examples. -/
def demoStat : Status := ⟨1, 5, 0, 3, 12⟩

/-- Calls in sequence; the history and the last state, or the reason why a call does not return. -/
def runOps (s : St) (tr : Trace) : List Op → Except Err (Trace × St)
  | [] => .ok (tr, s)
  | op :: l => match step s op with | .error e => .error e | .ok (s', r) => runOps s' (tr ++ [(op, r)]) l

theorem runOps_reach (l : List Op) {tr tr' : Trace} {s s' : St} (hr : Reach tr s) (h : runOps s tr l = .ok (tr', s')) :
    Reach tr' s' := by
  induction l generalizing tr s with
  | nil =>
    simp only [runOps, Except.ok.injEq, Prod.mk.injEq] at h
    rw [← h.1, ← h.2]; exact hr
  | cons op l ih =>
    simp only [runOps] at h
    cases hs : step s op with
    | error e => rw [hs] at h; exact absurd h (by simp)
    | ok x =>
      obtain ⟨s1, r⟩ := x
      rw [hs] at h
      exact ih (Reach.step hr hs) h

/-- A persistent receive used twice, with another request in between. -/
def demoOps : List Op :=
  [.recvInit (arg 1), .start 0#32 [], .isend (arg 2) [[(1, none)]], .wait 0#32 false [[(0, some demoStat)]],
   .wait 1#32 true [], .start 0#32 []]

/-- Its history. -/
def demoTr : Trace :=
  [(.recvInit (arg 1), ⟨.handle 0#32, [], []⟩), (.start 0#32 [], ⟨.unit, [0], []⟩),
   (.isend (arg 2) [[(1, none)]], ⟨.handle 1#32, [1], [(1, none)]⟩),
   (.wait 0#32 false [[(0, some demoStat)]], ⟨.ended 0#32 (some (some demoStat)), [], [(0, some demoStat)]⟩),
   (.wait 1#32 true [], ⟨.ended nullHandle none, [], []⟩),
   (.start 0#32 [], ⟨.unit, [2], []⟩)]

theorem demo_reach : ∃ s, Reach demoTr s := by
  have h : ∃ x, runOps St.init [] demoOps = .ok x ∧ x.1 = demoTr := ⟨_, rfl, by decide⟩
  obtain ⟨⟨tr, s⟩, h1, h2⟩ := h
  simp only at h2
  subst h2
  exact ⟨s, runOps_reach demoOps Reach.init h1⟩

/-- All splits of a list. -/
def splits {α : Type} : List α → List (List α × α × List α)
  | [] => []
  | x :: l => ([], x, l) :: (splits l).map (fun p => (x :: p.1, p.2.1, p.2.2))

theorem mem_splits {α : Type} {l t1 t2 : List α} {x : α} (h : l = t1 ++ x :: t2) : (t1, x, t2) ∈ splits l := by
  induction t1 generalizing l with
  | nil => subst h; simp [splits]
  | cons y t1 ih =>
    subst h
    simp only [List.cons_append, splits, List.mem_cons]
    right
    exact List.mem_map.2 ⟨(t1, x, t2), ih rfl, rfl⟩

/-- A computable form of `Good`. -/
def goodB (tr : Trace) : Bool :=
  decide ((handlesOf tr).length ≤ 0x2c000000) && decide (((doneIn tr).map (·.1)).Nodup) &&
    (splits tr).all (fun p => p.2.1.2.took.all (fun c => decide (c.1 ∈ postedIn (p.1 ++ [p.2.1])))) &&
    (splits tr).all (fun p => match p.2.1.1 with
      | .start h _ => (match lastAct p.1 h with | some (some i) => decide (i ∈ (doneIn p.1).map (·.1)) | _ => true)
      | _ => true)

theorem good_of_goodB {tr : Trace} (h : goodB tr = true) : Good tr := by
  unfold goodB at h
  simp only [Bool.and_eq_true, decide_eq_true_eq] at h
  obtain ⟨⟨⟨h1, h2⟩, h3⟩, h4⟩ := h
  refine ⟨h1, ⟨h2, ?_⟩, ?_⟩
  · intro t1 e t2 he c hc
    have := List.all_eq_true.1 h3 _ (mem_splits he)
    have := List.all_eq_true.1 this c hc
    exact of_decide_eq_true this
  · intro t1 hh ms r t2 he i hi
    have := List.all_eq_true.1 h4 _ (mem_splits he)
    simp only at this
    rw [hi] at this
    exact of_decide_eq_true this

theorem demo_good : Good demoTr := good_of_goodB (by decide)

theorem demo_held : Held demoTr 0#32 .recv (arg 1) true := by
  refine ⟨[], (.recvInit (arg 1), ⟨.handle 0#32, [], []⟩), demoTr.tail, rfl, ⟨rfl, Or.inr (Or.inr (Or.inr ⟨rfl, rfl, rfl⟩))⟩, ?_⟩
  intro e he
  simp only [demoTr, List.tail_cons, List.mem_cons, List.not_mem_nil, or_false] at he
  rintro ⟨⟨x, h1⟩, h2⟩
  rcases he with he | he | he | he | he
  · subst he; exact absurd h1 (by simp)
  · subst he; exact absurd h1 (by simp)
  · subst he
    simp only [Out.ended.injEq] at h1
    exact absurd h1.1 (by decide)
  · subst he
    simp at h2
  · subst he; exact absurd h1 (by simp)

/-! ### Handles -/

theorem handles_range {tr : Trace} {s : St} (hr : Reach tr s) :
    s.counter = (handlesOf tr).length ∧ handlesOf tr = (List.range s.counter).map (BitVec.ofNat 32) := by
  have hcomps : ∀ (s : St) (l : List Comp), (s.comps l).counter = s.counter := fun s l => (comps_posts l s).2.2.1
  have hfin : ∀ (s : St) (h : Handle) (o : Nat) (ign : Bool), (finalize s h o ign).1.counter = s.counter := by
    intro s h o ign
    unfold finalize
    simp only
    split
    · split
      · rfl
      · rfl
    · rfl
  have hse : ∀ (s : St) (a : Args), (s.doIsend a).counter = s.counter := by
    intro s a
    unfold St.doIsend
    simp only
    split
    · rfl
    · rfl
  induction hr with
  | init => exact ⟨rfl, rfl⟩
  | @step tr s s' op r _ hs ih =>
    have new : r.out = .handle (BitVec.ofNat 32 s.counter) → s'.counter = s.counter + 1 →
        s'.counter = (handlesOf (tr ++ [(op, r)])).length ∧ handlesOf (tr ++ [(op, r)]) = (List.range s'.counter).map (BitVec.ofNat 32) := by
      intro h1 h2
      rw [handles_new (e := (op, r)) h1, h2, List.length_append, List.length_singleton, ← ih.1, List.range_succ, List.map_append, ← ih.2]
      exact ⟨rfl, rfl⟩
    have same : (∀ x, r.out ≠ .handle x) → s'.counter = s.counter →
        s'.counter = (handlesOf (tr ++ [(op, r)])).length ∧ handlesOf (tr ++ [(op, r)]) = (List.range s'.counter).map (BitVec.ofNat 32) := by
      intro h1 h2
      rw [handles_same (e := (op, r)) h1, h2]
      exact ih
    cases op with
    | isend a ms =>
      simp only [Req.step, Except.ok.injEq, Prod.mk.injEq] at hs
      obtain ⟨h1, h2⟩ := hs
      refine new (by rw [← h2]) ?_
      rw [← h1, hcomps]
      simp only [St.add]; rw [hse]
    | irecv a ms =>
      simp only [Req.step, Except.ok.injEq, Prod.mk.injEq] at hs
      obtain ⟨h1, h2⟩ := hs
      refine new (by rw [← h2]) ?_
      rw [← h1, hcomps]
      unfold St.doIrecv
      simp only
      split
      · rfl
      · rfl
    | sendInit a =>
      simp only [Req.step, Except.ok.injEq, Prod.mk.injEq] at hs
      obtain ⟨h1, h2⟩ := hs
      exact new (by rw [← h2]) (by rw [← h1]; rfl)
    | recvInit a =>
      simp only [Req.step, Except.ok.injEq, Prod.mk.injEq] at hs
      obtain ⟨h1, h2⟩ := hs
      exact new (by rw [← h2]) (by rw [← h1]; rfl)
    | start h ms =>
      obtain ⟨s1, h1, h2, h3⟩ := start_ok hs
      obtain ⟨-, o, ob, a, -, -, -, h4⟩ := doStart_ok h1
      refine same (by intro x; rw [h3]; simp) ?_
      rw [h2, hcomps, h4]
      split
      · rfl
      · rfl
    | free h =>
      obtain ⟨h1, h2⟩ := free_ok hs
      refine same (by intro x; rw [h2]; simp) ?_
      rcases h1 with ⟨-, h1⟩ | h1
      · rw [h1]
      · rw [h1]; rfl
    | wait h ign ms =>
      rcases doWait_ok hs with ⟨-, h1, h2⟩ | ⟨-, o, s1, -, h1, -, h2, h3⟩
      · exact same (by intro x; rw [h2]; simp) (by rw [h1])
      · exact same (by intro x; rw [h3]; simp) (by rw [h2, hfin, h1, hcomps])
    | test h ign ms =>
      rcases doTest_ok hs with ⟨-, h1, h2⟩ | ⟨-, o, -, ⟨-, h1, h2⟩ | ⟨-, h1, h2⟩⟩
      · exact same (by intro x; rw [h2]; simp) (by rw [h1])
      · exact same (by intro x; rw [h2]; simp) (by rw [h1]; rfl)
      · exact same (by intro x; rw [h2]; simp) (by rw [h1, hcomps])
    | send a ms =>
      obtain ⟨h1, h2⟩ := send_ok hs
      refine same (by intro x; rw [h2]; simp) ?_
      rcases doSend_ok h1 with ⟨-, h3, -⟩ | ⟨-, h3, -⟩
      · rw [h3]
      · rw [h3, hcomps]; rfl
    | recv a ign ms =>
      rcases recv_ok hs with ⟨-, h1, -, h2⟩ | ⟨-, x, h1, h2⟩
      · exact same (by intro x; rw [h2]; simp) (by rw [h1])
      · exact same (by intro x; rw [h2]; simp) (by rw [(doRecv_ok h1).1, hcomps]; rfl)
    | sendrecv a b ign ms =>
      obtain ⟨st, h1, h2⟩ := sendrecv_ok hs
      refine same (by intro x; rw [h2]; simp) ?_
      rcases doSendrecv_ok h1 with ⟨-, -, h3, -⟩ | ⟨-, -, h3, -⟩ | ⟨-, -, x, h3, -⟩ | ⟨h0, -, s2, tk1, tk2, -, h3, -, h4, -⟩
      · rw [h3]
      · rcases doSend_ok h3 with ⟨-, h3, -⟩ | ⟨-, h3, -⟩
        · rw [h3]
        · rw [h3, hcomps]; rfl
      · rw [(doRecv_ok h3).1, hcomps]; rfl
      · rw [h4, hcomps, h3, hcomps]
        simp only [St.post, St.construct]
        rw [hse]

/-- As long as a program has asked for at most 0x2c000000 requests, all requests it was given
are different and none is `MPI_REQUEST_NULL`. -/
theorem C115_handles_partial (tr : Trace) (s : St) (hr : Reach tr s) (hf : Few tr) :
    (handlesOf tr).Nodup ∧ nullHandle ∉ handlesOf tr := by
  obtain ⟨h1, h2⟩ := handles_range hr
  unfold Few at hf
  rw [← h1] at hf
  rw [h2]
  constructor
  · unfold List.Nodup
    rw [List.pairwise_map]
    refine List.Pairwise.imp_of_mem ?_ List.pairwise_lt_range
    intro m n hm hn hlt he
    have := ofNat_inj (by have := List.mem_range.1 hm; omega) (by have := List.mem_range.1 hn; omega) he
    omega
  · intro hm
    obtain ⟨m, h3, h4⟩ := List.mem_map.1 hm
    exact ofNat_ne_null (by have := List.mem_range.1 h3; omega) h4

example : (∃ s, Reach demoTr s) ∧ Few demoTr ∧ handlesOf demoTr = [0#32, 1#32] := ⟨demo_reach, demo_good.1, by decide⟩

/-- A program that posts `n` receives. -/
theorem reach_many (n : Nat) : ∃ tr s, Reach tr s ∧ s.counter = n ∧ s.posts.length = n ∧ doneIn tr = [] := by
  induction n with
  | zero => exact ⟨[], St.init, Reach.init, rfl, rfl, rfl⟩
  | succ n ih =>
    obtain ⟨tr, s, h1, h2, h3, h4⟩ := ih
    refine ⟨_, _, Reach.step (op := .irecv (arg 1) []) h1 rfl, ?_, ?_, ?_⟩
    · show s.counter + 1 = n + 1
      omega
    · show (s.posts ++ [_]).length = n + 1
      rw [List.length_append, h3]; rfl
    · rw [done_snoc, h4]; rfl

/-- The request number 0x2c000000 is `MPI_REQUEST_NULL`: the receive has been posted, but
waiting for its request returns at once, although nothing has been received. -/
theorem C115_null_refuted :
    ∃ tr s s' r, Reach tr s ∧ (handlesOf tr).length = 0x2c000000 ∧ step s (.irecv (arg 1) []) = .ok (s', r) ∧
      r.out = .handle nullHandle ∧ r.posts = [0x2c000000] ∧
      ∀ ign ms, ∃ r', step s' (.wait nullHandle ign ms) = .ok (s', r') ∧
        doneIn (tr ++ [(.irecv (arg 1) [], r), (.wait nullHandle ign ms, r')]) = [] := by
  obtain ⟨tr, s, h1, h2, h3, h4⟩ := reach_many 0x2c000000
  refine ⟨tr, s, _, _, h1, ?_, rfl, ?_, ?_, ?_⟩
  · rw [← (handles_range h1).1, h2]
  · rw [h2]; rfl
  · show newPosts s _ = _
    rw [newPosts_one (s := s) (x := (s.objs.length, .recv, arg 1)) rfl, h3]
  · intro ign ms
    refine ⟨_, rfl, ?_⟩
    unfold doneIn at h4 ⊢
    rw [List.flatMap_append, h4]; rfl

/-! ### Starting persistent requests -/

/-- Each start of a persistent request hands the network exactly one operation, with exactly
the arguments given when the request was created; none if the partner is `MPI_PROC_NULL`. -/
theorem C115_start (tr : Trace) (s : St) (hr : Reach tr s) (hg : Good tr) (h : Handle) (k : Kind) (a : Args)
    (hh : Held tr h k a true) (ms : List Msg) :
    ∃ s' r, step s (.start h ms) = .ok (s', r) ∧ r.out = .unit ∧
      s'.posts.map (·.2) = s.posts.map (·.2) ++ (if a.peer = procNull then [] else [(k, a)]) ∧
      r.posts = (if a.peer = procNull then [] else [s.posts.length]) := by
  have hok := reach_ok hr hg
  obtain ⟨o, ob, g1, g2, g3, g4, -⟩ := hok.inv.obj h k a true hh
  rw [if_pos rfl] at g4
  obtain ⟨s1, hst, hs1⟩ : ∃ s1, doStart s h = .ok s1 ∧
      s1.posts = s.posts ++ (if a.peer = procNull then [] else [(o, k, a)]) := by
    unfold doStart
    rw [if_neg (held_ne_null hok hh), g1]
    simp only
    rw [g2]
    simp only
    rw [g4]
    simp only
    by_cases hn : a.peer = procNull
    · rw [if_pos hn, if_pos hn]
      exact ⟨_, rfl, by simp [St.upd]⟩
    · rw [if_neg hn, if_neg hn, g3]
      exact ⟨_, rfl, rfl⟩
  refine ⟨s1.comps ms.flatten, ⟨.unit, newPosts s s1, ms.flatten⟩, ?_, rfl, ?_, ?_⟩
  · simp only [step]
    rw [hst]
  · rw [(comps_posts _ _).1, hs1]
    by_cases hn : a.peer = procNull
    · rw [if_pos hn, if_pos hn]; simp
    · rw [if_neg hn, if_neg hn]; simp
  · by_cases hn : a.peer = procNull
    · rw [if_pos hn] at hs1 ⊢
      exact newPosts_eq (by rw [hs1, List.append_nil])
    · rw [if_neg hn] at hs1 ⊢
      exact newPosts_one hs1

example : ∃ s, Reach demoTr s ∧ Good demoTr ∧ Held demoTr 0#32 .recv (arg 1) true := by
  obtain ⟨s, hs⟩ := demo_reach
  exact ⟨s, hs, demo_good, demo_held⟩

/-- `MPI_Isend` and `MPI_Irecv` hand over exactly one operation, with their arguments (none if the
partner is `MPI_PROC_NULL`), and the request they give is held from then on; creating a
persistent request hands over nothing. -/
theorem C115_nonblocking (tr : Trace) (s : St) (_hr : Reach tr s) (k : Kind) (a : Args) (ms : List Msg) (op : Op) (p : Bool)
    (hop : (k = .send ∧ p = false ∧ op = .isend a ms) ∨ (k = .recv ∧ p = false ∧ op = .irecv a ms) ∨
      (k = .send ∧ p = true ∧ op = .sendInit a) ∨ (k = .recv ∧ p = true ∧ op = .recvInit a)) :
    ∃ s' r h, step s op = .ok (s', r) ∧ r.out = .handle h ∧ Held (tr ++ [(op, r)]) h k a p ∧
      s'.posts.map (·.2) = s.posts.map (·.2) ++ (if p = true ∨ a.peer = procNull then [] else [(k, a)]) := by
  have hnil : ∀ (l : List (Kind × Args)), l = l ++ [] := fun l => (List.append_nil l).symm
  rcases hop with ⟨hk, hp, hop⟩ | ⟨hk, hp, hop⟩ | ⟨hk, hp, hop⟩ | ⟨hk, hp, hop⟩
  · subst hk hp hop
    refine ⟨_, _, _, rfl, rfl, ⟨tr, _, [], rfl, ⟨rfl, Or.inl ⟨_, rfl, rfl, rfl⟩⟩, by simp⟩, ?_⟩
    rw [(comps_posts _ _).1]
    show ((s.doIsend a).posts).map _ = _
    rw [doIsend_posts]
    by_cases hn : a.peer = procNull
    · rw [if_pos hn, if_pos (Or.inr hn)]; exact hnil _
    · rw [if_neg hn, if_neg (by simp [hn])]; simp
  · subst hk hp hop
    refine ⟨_, _, _, rfl, rfl, ⟨tr, _, [], rfl, ⟨rfl, Or.inr (Or.inl ⟨_, rfl, rfl, rfl⟩)⟩, by simp⟩, ?_⟩
    rw [(comps_posts _ _).1, doIrecv_posts]
    by_cases hn : a.peer = procNull
    · rw [if_pos hn, if_pos (Or.inr hn)]; exact hnil _
    · rw [if_neg hn, if_neg (by simp [hn])]; simp
  · subst hk hp hop
    refine ⟨_, _, _, rfl, rfl, ⟨tr, _, [], rfl, ⟨rfl, Or.inr (Or.inr (Or.inl ⟨rfl, rfl, rfl⟩))⟩, by simp⟩, ?_⟩
    rw [if_pos (Or.inl rfl)]; exact hnil _
  · subst hk hp hop
    refine ⟨_, _, _, rfl, rfl, ⟨tr, _, [], rfl, ⟨rfl, Or.inr (Or.inr (Or.inr ⟨rfl, rfl, rfl⟩))⟩, by simp⟩, ?_⟩
    rw [if_pos (Or.inl rfl)]; exact hnil _

example : ∃ s', step St.init (.isend (arg 2) []) = .ok (s', ⟨.handle 0#32, [0], []⟩) := ⟨_, rfl⟩

/-- Starting a request that is not persistent is reported. -/
theorem C115_start_other (tr : Trace) (s : St) (hr : Reach tr s) (hg : Good tr) (h : Handle) (k : Kind) (a : Args)
    (hh : Held tr h k a false) (ms : List Msg) : step s (.start h ms) = .error .notPersistent := by
  have hok := reach_ok hr hg
  obtain ⟨o, ob, g1, g2, g3, g4, -⟩ := hok.inv.obj h k a false hh
  have hst : doStart s h = .error .notPersistent := by
    unfold doStart
    rw [if_neg (held_ne_null hok hh), g1]
    simp only
    rw [g2]
    simp only
    rw [g4]
    rfl
  simp only [step]
  rw [hst]

example : Held [(.isend (arg 2) [], ⟨.handle 0#32, [0], []⟩)] 0#32 .send (arg 2) false :=
  ⟨[], _, [], rfl, ⟨rfl, Or.inl ⟨_, rfl, rfl, rfl⟩⟩, by simp⟩

/-! ### Waiting -/

theorem isDone_of {s : St} {o : Nat} {ob : Obj} (h : s.objs[o]? = some ob) : s.isDone o = ob.complete := by
  unfold St.isDone; rw [h]

theorem stat_of {s : St} {o : Nat} {ob : Obj} (h : s.objs[o]? = some ob) : s.stat o = ob.stat := by
  unfold St.stat; rw [h]

/-- The wait for a held request returns only when the operation of its last start has been
completed (or was with `MPI_PROC_NULL`), and then it reports the status of that very
operation; the variable becomes `MPI_REQUEST_NULL` unless the request is persistent. -/
theorem C115_wait (tr : Trace) (s s' : St) (hr : Reach tr s) (h : Handle) (k : Kind) (a : Args) (p : Bool) (ign : Bool)
    (ms : List Msg) (r : Res) (hh : Held tr h k a p) (hs : step s (.wait h ign ms) = .ok (s', r))
    (hg : Good (tr ++ [(.wait h ign ms, r)])) :
    ∃ st, r.out = .ended (if p then h else nullHandle) st ∧ (ign = true → st = none) ∧
      ((∃ i, lastAct tr h = some (some i) ∧ a.peer ≠ procNull ∧ (s.posts.map (·.2))[i]? = some (k, a) ∧
          i ∈ (doneIn tr ++ r.took).map (·.1) ∧
          ∀ v, (i, some v) ∈ doneIn tr ++ r.took → ign = false → st = some (some v)) ∨
       (lastAct tr h = some none ∧ a.peer = procNull ∧
          (p = false → k = .recv → ign = false → st = some (some procNullStatus)))) := by
  have hok := reach_ok hr hg.prefix
  have hok' := hok.step hs hg
  have htook : ∀ c ∈ r.took, c.1 < s.posts.length := by
    intro c hc
    have := hok'.done c (by rw [done_snoc]; exact List.mem_append_right _ hc)
    obtain ⟨-, hpr⟩ := step_posts hs
    rcases doWait_ok hs with ⟨-, h1, -⟩ | ⟨-, o, s1, -, h1, -, h2, -⟩
    · rw [h1] at this; exact this
    · rw [h2, finalize_posts, h1, (comps_posts _ _).1] at this; exact this
  have hnd : ((doneIn tr ++ r.took).map (·.1)).Nodup := by
    have := hg.2.1.1
    rw [done_snoc] at this
    exact this
  rcases doWait_ok hs with ⟨h0, -, -⟩ | ⟨-, o, s1, hm, h1, hd, h2, h3⟩
  · exact absurd h0 (held_ne_null hok hh)
  · obtain ⟨o', ob, g1, g2, g3, g4, g5⟩ := hok.inv.obj h k a p hh
    have : o' = o := by rw [hm] at g1; exact (Option.some.inj g1).symm
    subst this
    obtain ⟨ob', f1, f2, f3, f4⟩ := act_comps r.took g2 g5 htook hnd
    rw [← h1] at f1 f4
    rw [isDone_of f1] at hd
    have hout : r.out = .ended (if p then h else nullHandle) (if ign then none else some ob'.stat) := by
      rw [h3]
      unfold finalize
      simp only
      rw [f1]
      simp only
      rw [f3, g4, stat_of f1]
      cases p with
      | true => rfl
      | false => rfl
    refine ⟨_, hout, fun hi => if_pos hi, ?_⟩
    have hp1 : s1.posts = s.posts := by rw [h1]; exact (comps_posts _ _).1
    rw [hp1] at f4
    cases hl : lastAct tr h with
    | none =>
      rw [hl] at f4
      rw [f4.2.1] at hd
      exact absurd hd (by simp)
    | some x =>
      cases x with
      | none =>
        rw [hl] at f4
        refine Or.inr ⟨rfl, f4.1, ?_⟩
        intro e1 e2 e3
        rw [if_neg (by simp [e3]), f4.2.2.2 e1 e2]
      | some i =>
        rw [hl] at f4
        refine Or.inl ⟨i, rfl, f4.1, ?_, f4.2.2.2.1.1 hd, ?_⟩
        · rw [List.getElem?_map, f4.2.1]; rfl
        · intro v hv hi
          rw [if_neg (by simp [hi]), f4.2.2.2.2 v hv]

/-- A wait that takes the completion of the operation does not block. -/
theorem C115_wait_returns (tr : Trace) (s : St) (hr : Reach tr s) (hg : Good tr) (h : Handle) (k : Kind) (a : Args) (p : Bool)
    (ign : Bool) (ms : List Msg) (hh : Held tr h k a p)
    (hend : (lastAct tr h = some none) ∨ ∃ i, lastAct tr h = some (some i) ∧ i ∈ (doneIn tr ++ ms.flatten).map (·.1)) :
    ∃ s' r, step s (.wait h ign ms) = .ok (s', r) := by
  have hok := reach_ok hr hg
  obtain ⟨o, ob, g1, g2, g3, g4, g5⟩ := hok.inv.obj h k a p hh
  -- once complete, an object stays complete
  have stay : ∀ (l : List Comp) (s : St), s.isDone o = true → (s.comps l).isDone o = true := by
    intro l
    induction l with
    | nil => intro s hs; exact hs
    | cons c l ih =>
      intro s hs
      apply ih
      unfold St.comp
      cases hp : s.posts[c.1]? with
      | none => exact hs
      | some x =>
        simp only
        unfold St.isDone at hs ⊢
        cases ho : s.objs[o]? with
        | none => rw [ho] at hs; exact absurd hs (by simp)
        | some b =>
          rw [ho] at hs
          by_cases he : x.1 = o
          · simp only [St.upd]
            rw [he, List.getElem?_modify_eq, ho]; rfl
          · simp only [St.upd]
            rw [List.getElem?_modify_ne _ _ he, ho]; exact hs
  have hits : ∀ (l : List Comp) (s : St) (i : Nat), (s.posts[i]?).map (·.1) = some o → o < s.objs.length → i ∈ l.map (·.1) →
      (s.comps l).isDone o = true := by
    intro l
    induction l with
    | nil => intro s i _ _ hi; simp at hi
    | cons c l ih =>
      intro s i hp ho hi
      simp only [List.map_cons, List.mem_cons] at hi
      obtain ⟨f1, -, -, f4⟩ := comp_posts s c
      rcases hi with hi | hi
      · apply stay l (s.comp c)
        unfold St.comp
        rw [← hi]
        cases hx : s.posts[i]? with
        | none => rw [hx] at hp; simp at hp
        | some x =>
          rw [hx] at hp
          simp only [Option.map_some, Option.some.injEq] at hp
          simp only
          unfold St.isDone
          simp only [St.upd]
          rw [hp, List.getElem?_modify_eq, List.getElem?_eq_getElem ho]; rfl
      · exact ih (s.comp c) i (by rw [f1]; exact hp) (by rw [f4]; exact ho) hi
  have prog : ∀ (ms : List Msg) (s : St), (s.comps ms.flatten).isDone o = true → ∃ x, progress s o ms = some x := by
    intro ms
    induction ms with
    | nil =>
      intro s hs
      have hs : s.isDone o = true := hs
      simp only [progress]; rw [if_pos hs]; exact ⟨_, rfl⟩
    | cons m ms ih =>
      intro s hs
      simp only [progress]
      split
      · exact ⟨_, rfl⟩
      · have : ((s.comps m).comps ms.flatten).isDone o = true := by
          simp only [St.comps, List.flatten_cons, List.foldl_append] at hs ⊢
          exact hs
        obtain ⟨x, hx⟩ := ih (s.comps m) this
        rw [hx]; exact ⟨_, rfl⟩
  have hdone : (s.comps ms.flatten).isDone o = true := by
    rcases hend with hl | ⟨i, hl, hi⟩
    · rw [hl] at g5
      apply stay
      rw [isDone_of g2]; exact g5.2.1
    · rw [hl] at g5
      rw [List.map_append, List.mem_append] at hi
      rcases hi with hi | hi
      · apply stay
        rw [isDone_of g2]; exact g5.2.2.2.1.2 hi
      · exact hits _ _ i (by rw [g5.2.1]; rfl) (hok.inv.dom h o g1) hi
  obtain ⟨x, hx⟩ := prog ms s hdone
  simp only [step, doWait]
  rw [if_neg (held_ne_null hok hh), g1]
  simp only
  rw [hx]
  exact ⟨_, _, rfl⟩

example : lastAct demoTr 0#32 = some (some 2) ∧ (doneIn demoTr).map (·.1) = [1, 0] := by decide

/-- `MPI_Test` says yes exactly when the operation of the last start has been completed before
the call (or was with `MPI_PROC_NULL`), and then reports the status of that operation. -/
theorem C115_test (tr : Trace) (s : St) (hr : Reach tr s) (hg : Good tr) (h : Handle) (k : Kind) (a : Args) (p : Bool)
    (ign : Bool) (ms : List Msg) (hh : Held tr h k a p) :
    ∃ s' r, step s (.test h ign ms) = .ok (s', r) ∧
      ((r.out ≠ .notYet ↔ (lastAct tr h = some none ∨ ∃ i, lastAct tr h = some (some i) ∧ i ∈ (doneIn tr).map (·.1)))) ∧
      (r.out ≠ .notYet → ∃ st, r.out = .ended nullHandle st ∧
        ∀ i v, lastAct tr h = some (some i) → (i, some v) ∈ doneIn tr → ign = false → st = some (some v)) := by
  have hok := reach_ok hr hg
  obtain ⟨o, ob, g1, g2, g3, g4, g5⟩ := hok.inv.obj h k a p hh
  have hiff : ob.complete = true ↔ (lastAct tr h = some none ∨ ∃ i, lastAct tr h = some (some i) ∧ i ∈ (doneIn tr).map (·.1)) := by
    cases hl : lastAct tr h with
    | none =>
      rw [hl] at g5
      rw [g5.2.1]; simp
    | some x =>
      cases x with
      | none =>
        rw [hl] at g5
        rw [g5.2.1]; simp
      | some i =>
        rw [hl] at g5
        rw [g5.2.2.2.1]; simp
  simp only [step, doTest]
  rw [if_neg (held_ne_null hok hh), g1]
  simp only
  rw [isDone_of g2]
  cases hc : ob.complete with
  | true =>
    rw [hc] at hiff
    refine ⟨_, _, rfl, ⟨fun _ => hiff.1 rfl, fun _ => by simp⟩, fun _ => ⟨_, rfl, ?_⟩⟩
    intro i v hl hv hi
    rw [hl] at g5
    rw [if_neg (by simp [hi]), stat_of g2, g5.2.2.2.2 v hv]
  | false =>
    rw [hc] at hiff
    refine ⟨_, _, rfl, ⟨fun h => absurd rfl h, fun h => absurd (hiff.2 h) (by simp)⟩, fun h => absurd rfl h⟩

/-- Waiting for a persistent request that has not been started should return at once; it
never returns. -/
theorem C115_inactive_refuted :
    ∃ tr s, Reach tr s ∧ Good tr ∧ Held tr 0#32 .recv (arg 1) true ∧ ∀ ign ms, step s (.wait 0#32 ign ms) = .error .blocked := by
  refine ⟨_, _, Reach.step (op := .recvInit (arg 1)) Reach.init rfl, good_of_goodB (by decide),
    ⟨[], _, [], rfl, ⟨rfl, Or.inr (Or.inr (Or.inr ⟨rfl, rfl, rfl⟩))⟩, by simp⟩, ?_⟩
  intro ign ms
  have hcomps : ∀ (l : List Comp), (doInit St.init .recv (arg 1)).comps l = doInit St.init .recv (arg 1) := by
    intro l
    induction l with
    | nil => rfl
    | cons c l ih =>
      show St.comps (St.comp _ c) l = _
      have : (doInit St.init .recv (arg 1)).comp c = doInit St.init .recv (arg 1) := rfl
      rw [this]; exact ih
  have hp : ∀ ms, progress (doInit St.init .recv (arg 1)) 0 ms = none := by
    intro ms
    induction ms with
    | nil => rfl
    | cons m ms ih =>
      simp only [progress]
      rw [hcomps, ih]; rfl
  show doWait _ _ _ _ = _
  unfold doWait
  rw [if_neg (by decide)]
  have hm : (doInit St.init .recv (arg 1)).map 0#32 = some 0 := by decide
  rw [hm]
  simp only
  rw [hp]

/-- A receive from `MPI_PROC_NULL` should give the status of `MPI_PROC_NULL`; for a persistent
receive the status is never written. -/
theorem C115_persistent_status_refuted :
    ∃ tr s s' r, Reach tr s ∧ Good tr ∧ Held tr 0#32 .recv (arg procNull) true ∧ lastAct tr 0#32 = some none ∧
      step s (.wait 0#32 false []) = .ok (s', r) ∧ r.out = .ended 0#32 (some none) := by
  refine ⟨_, _, _, _, Reach.step (op := .start 0#32 []) (Reach.step (op := .recvInit (arg procNull)) Reach.init rfl) rfl,
    good_of_goodB (by decide), ?_, by decide, rfl, by decide⟩
  refine ⟨[], _, [_], rfl, ⟨rfl, Or.inr (Or.inr (Or.inr ⟨rfl, rfl, rfl⟩))⟩, ?_⟩
  intro e he
  rw [List.mem_singleton.1 he]
  rintro ⟨⟨x, h1⟩, -⟩
  exact absurd h1 (by simp)

/-! ### Blocking calls -/

/-- `MPI_Send` and `MPI_Recv`: the call hands over exactly one operation, with its arguments,
and returns only when that one has been completed, with the status of that one. -/
theorem C115_blocking (tr : Trace) (s s' : St) (hr : Reach tr s) (k : Kind) (a : Args) (ign : Bool) (ms : List Msg) (op : Op)
    (hop : (k = .send ∧ op = .send a ms) ∨ (k = .recv ∧ op = .recv a ign ms)) (ha : a.peer ≠ procNull) (r : Res)
    (hs : step s op = .ok (s', r)) (hg : Good (tr ++ [(op, r)])) :
    s'.posts.map (·.2) = s.posts.map (·.2) ++ [(k, a)] ∧ r.posts = [s.posts.length] ∧ s.posts.length ∈ r.took.map (·.1) ∧
      (k = .recv → ign = false → ∀ v, (s.posts.length, some v) ∈ r.took → r.out = .ended nullHandle (some (some v))) := by
  have hok := reach_ok hr hg.prefix
  have hok' := hok.step hs hg
  have hnd : ((doneIn tr ++ r.took).map (·.1)).Nodup := by
    have := hg.2.1.1
    rw [done_snoc] at this
    exact this
  have nodone : s.posts.length ∉ (doneIn tr).map (·.1) := by
    intro hx
    obtain ⟨c, hc1, hc2⟩ := List.mem_map.1 hx
    have := hok.done c hc1
    omega
  have hst : ∃ st, s' = ((s.construct k).post s.objs.length k a).comps r.took ∧ s'.isDone s.objs.length = true ∧
      st = s'.stat s.objs.length ∧ (k = .recv → ign = false → r.out = .ended nullHandle (some st)) := by
    rcases hop with ⟨hk, hop⟩ | ⟨hk, hop⟩
    · subst hk hop
      obtain ⟨h1, h2⟩ := send_ok hs
      rcases doSend_ok h1 with ⟨h3, -⟩ | ⟨-, h3, h4⟩
      · exact absurd h3 ha
      · exact ⟨_, h3, h4, rfl, fun h => absurd h (by decide)⟩
    · subst hk hop
      rcases recv_ok hs with ⟨h3, -⟩ | ⟨-, x, h1, h2⟩
      · exact absurd h3 ha
      · obtain ⟨g1, g2, g3⟩ := doRecv_ok h1
        refine ⟨x, g1, g2, g3, ?_⟩
        intro _ hi
        rw [h2, hi]; rfl
  obtain ⟨st, h1, h2, h3, h4⟩ := hst
  have hp : s'.posts = s.posts ++ [(s.objs.length, k, a)] := by rw [h1, (comps_posts _ _).1]; rfl
  have htook : ∀ c ∈ r.took, c.1 < ((s.construct k).post s.objs.length k a).posts.length := by
    intro c hc
    have := hok'.done c (by rw [done_snoc]; exact List.mem_append_right _ hc)
    rw [hp] at this
    exact this
  have hact : ActOk k a false s.objs.length ⟨k, false, none, none⟩ (some (some s.posts.length)) (doneIn tr)
      ((s.construct k).post s.objs.length k a).posts := by
    refine ⟨ha, by simp [St.post, St.construct], ?_, ?_, ?_⟩
    · intro j e hj he hji
      exfalso
      simp only [St.post, St.construct] at hj
      by_cases hlt : j < s.posts.length
      · rw [List.getElem?_append_left hlt] at hj
        have := hok.inv.postDom j e hj
        omega
      · rw [List.getElem?_append_right (by omega)] at hj
        have : j - s.posts.length < 1 := by
          have := (List.getElem?_eq_some_iff.1 hj).1
          simpa using this
        omega
    · constructor
      · intro h; exact absurd h (by simp)
      · intro h; exact absurd h nodone
    · intro v hv
      exact absurd (List.mem_map_of_mem (f := (·.1)) hv) nodone
  obtain ⟨ob', f1, -, -, f4⟩ := act_comps (s := (s.construct k).post s.objs.length k a) r.took (construct_last s k) hact htook hnd
  rw [← h1] at f1
  rw [isDone_of f1] at h2
  rw [stat_of f1] at h3
  refine ⟨?_, ?_, ?_, ?_⟩
  · rw [hp]; simp
  · rw [(step_posts hs).2]; exact newPosts_one hp
  · have := f4.2.2.2.1.1 h2
    rw [List.map_append, List.mem_append] at this
    exact this.resolve_left nodone
  · intro hk hi v hv
    rw [h4 hk hi, h3, f4.2.2.2.2 v (List.mem_append_right _ hv)]

example : ∃ s' r, step St.init (.recv (arg 1) false [[(0, some demoStat)]]) = .ok (s', r) ∧
    Good [(.recv (arg 1) false [[(0, some demoStat)]], r)] ∧ r.took = [(0, some demoStat)] :=
  ⟨_, _, rfl, good_of_goodB (by decide), by decide⟩

/-- `MPI_Sendrecv` hands over the send, then the receive, before it waits; it returns only
when both have been completed, with the status of the receive. -/
theorem C115_sendrecv (tr : Trace) (s s' : St) (hr : Reach tr s) (a b : Args) (ign : Bool) (ms : List Msg)
    (ha : a.peer ≠ procNull) (hb : b.peer ≠ procNull) (r : Res) (hs : step s (.sendrecv a b ign ms) = .ok (s', r))
    (hg : Good (tr ++ [(.sendrecv a b ign ms, r)])) :
    s'.posts.map (·.2) = s.posts.map (·.2) ++ [(.send, a), (.recv, b)] ∧ r.posts = [s.posts.length, s.posts.length + 1] ∧
      s.posts.length ∈ r.took.map (·.1) ∧ s.posts.length + 1 ∈ r.took.map (·.1) ∧
      (ign = false → ∀ v, (s.posts.length + 1, some v) ∈ r.took → r.out = .ended nullHandle (some (some v))) := by
  have hok := reach_ok hr hg.prefix
  have hok' := hok.step hs hg
  have hnd : ((doneIn tr ++ r.took).map (·.1)).Nodup := by
    have := hg.2.1.1
    rw [done_snoc] at this
    exact this
  obtain ⟨st, h1, h2⟩ := sendrecv_ok hs
  rcases doSendrecv_ok h1 with ⟨h3, -⟩ | ⟨-, h3, -⟩ | ⟨h3, -⟩ | ⟨-, -, s2, tk1, tk2, h5, h3, hd2, h4, hd1, hst⟩
  · exact absurd h3 ha
  · exact absurd h3 hb
  · exact absurd h3 ha
  · have hse : s.doIsend a = (s.construct .send).post s.objs.length .send a := by
      unfold St.doIsend; simp only; rw [if_neg ha]
    rw [hse] at h3
    have hp0 : ((((s.construct .send).post s.objs.length .send a).construct .recv).post (s.objs.length + 1) .recv b).posts =
        s.posts ++ [(s.objs.length, .send, a)] ++ [(s.objs.length + 1, .recv, b)] := rfl
    have hp2 : s2.posts = s.posts ++ [(s.objs.length, .send, a)] ++ [(s.objs.length + 1, .recv, b)] := by
      rw [h3, (comps_posts _ _).1]; rfl
    have hp : s'.posts = s.posts ++ [(s.objs.length, .send, a)] ++ [(s.objs.length + 1, .recv, b)] := by
      rw [h4, (comps_posts _ _).1, hp2]
    have htook : ∀ c ∈ r.took, c.1 < s.posts.length + 2 := by
      intro c hc
      have := hok'.done c (by rw [done_snoc]; exact List.mem_append_right _ hc)
      rw [hp] at this
      simp at this
      omega
    have nodone : ∀ j, s.posts.length ≤ j → j ∉ (doneIn tr).map (·.1) := by
      intro j hj hx
      obtain ⟨c, hc1, hc2⟩ := List.mem_map.1 hx
      have := hok.done c hc1
      omega
    have hget : ∀ (j : Nat) (e : Nat × Kind × Args),
        (s.posts ++ [(s.objs.length, Kind.send, a)] ++ [(s.objs.length + 1, Kind.recv, b)])[j]? = some e →
        (j < s.posts.length ∧ e.1 < s.objs.length) ∨ (j = s.posts.length ∧ e.1 = s.objs.length) ∨
        (j = s.posts.length + 1 ∧ e.1 = s.objs.length + 1) := by
      intro j e he
      by_cases h1 : j < s.posts.length
      · rw [List.append_assoc, List.getElem?_append_left h1] at he
        exact Or.inl ⟨h1, hok.inv.postDom j e he⟩
      · rw [List.append_assoc, List.getElem?_append_right (by omega)] at he
        have h2 : j - s.posts.length < 2 := (List.getElem?_eq_some_iff.1 he).1
        by_cases h3 : j = s.posts.length
        · rw [h3, Nat.sub_self] at he
          simp at he
          exact Or.inr (Or.inl ⟨h3, by rw [← he]⟩)
        · have h4 : j = s.posts.length + 1 := by omega
          rw [h4, Nat.add_sub_cancel_left] at he
          simp at he
          exact Or.inr (Or.inr ⟨h4, by rw [← he]⟩)
    have actS : ActOk .send a false s.objs.length ⟨.send, false, none, none⟩ (some (some s.posts.length)) (doneIn tr)
        ((((s.construct .send).post s.objs.length .send a).construct .recv).post (s.objs.length + 1) .recv b).posts := by
      rw [hp0]
      refine ⟨ha, by simp, ?_, ⟨fun h => absurd h (by simp), fun h => absurd h (nodone _ (Nat.le_refl _))⟩, ?_⟩
      · intro j e hj he hji
        rcases hget j e hj with ⟨-, h⟩ | ⟨h, -⟩ | ⟨-, h⟩
        · omega
        · exact absurd h hji
        · omega
      · intro v hv
        exact absurd (List.mem_map_of_mem (f := (·.1)) hv) (nodone _ (Nat.le_refl _))
    have actR : ActOk .recv b false (s.objs.length + 1) ⟨.recv, false, none, none⟩ (some (some (s.posts.length + 1))) (doneIn tr)
        ((((s.construct .send).post s.objs.length .send a).construct .recv).post (s.objs.length + 1) .recv b).posts := by
      rw [hp0]
      refine ⟨hb, by simp, ?_, ⟨fun h => absurd h (by simp), fun h => absurd h (nodone _ (by omega))⟩, ?_⟩
      · intro j e hj he hji
        rcases hget j e hj with ⟨-, h⟩ | ⟨-, h⟩ | ⟨h, -⟩
        · omega
        · omega
        · exact absurd h hji
      · intro v hv
        exact absurd (List.mem_map_of_mem (f := (·.1)) hv) (nodone _ (by omega))
    have oS : ((((s.construct .send).post s.objs.length .send a).construct .recv).post (s.objs.length + 1) .recv b).objs[s.objs.length]? =
        some ⟨.send, false, none, none⟩ := by
      simp [St.post, St.construct]
    have oR : ((((s.construct .send).post s.objs.length .send a).construct .recv).post (s.objs.length + 1) .recv b).objs[s.objs.length + 1]? =
        some ⟨.recv, false, none, none⟩ := by
      simp [St.post, St.construct]
    have hnd1 : ((doneIn tr ++ tk1).map (·.1)).Nodup := by
      rw [h5, ← List.append_assoc, List.map_append] at hnd
      exact (List.nodup_append.1 hnd).1
    have hlen : ∀ c ∈ r.took, c.1 <
        ((((s.construct .send).post s.objs.length .send a).construct .recv).post (s.objs.length + 1) .recv b).posts.length := by
      intro c hc
      rw [hp0]
      have := htook c hc
      simp
      omega
    have hs' : s' = ((((s.construct .send).post s.objs.length .send a).construct .recv).post (s.objs.length + 1) .recv b).comps r.took := by
      rw [h4, h3, h5]
      simp only [St.comps, List.foldl_append]
    obtain ⟨obS, f1, -, -, f4⟩ := act_comps r.took oS actS hlen hnd
    rw [← hs'] at f1
    rw [isDone_of f1] at hd1
    obtain ⟨obR, e1, -, -, e4⟩ := act_comps tk1 oR actR (fun c hc => hlen c (by rw [h5]; exact List.mem_append_left _ hc)) hnd1
    rw [← h3] at e1
    rw [isDone_of e1] at hd2
    rw [stat_of e1] at hst
    have hR : s.posts.length + 1 ∈ tk1.map (·.1) := by
      have := e4.2.2.2.1.1 hd2
      rw [List.map_append, List.mem_append] at this
      exact this.resolve_left (nodone _ (by omega))
    refine ⟨?_, ?_, ?_, ?_, ?_⟩
    · rw [hp]; simp
    · rw [(step_posts hs).2]; exact newPosts_two hp
    · have := f4.2.2.2.1.1 hd1
      rw [List.map_append, List.mem_append] at this
      exact this.resolve_left (nodone _ (Nat.le_refl _))
    · rw [h5, List.map_append]; exact List.mem_append_left _ hR
    · intro hi v hv
      rw [h2, hst, hi]
      simp only [Bool.false_eq_true, if_false]
      rw [e4.2.2.2.2 v]
      apply List.mem_append_right
      rw [h5] at hv
      rcases List.mem_append.1 hv with hv | hv
      · exact hv
      · exfalso
        rw [h5, List.map_append, List.map_append, List.nodup_append] at hnd
        have := (List.nodup_append.1 hnd.2.1).2.2 _ hR _ (List.mem_map_of_mem (f := (·.1)) hv)
        exact this rfl

example : ∃ s' r, step St.init (.sendrecv (arg 1) (arg 2) false [[(1, some demoStat)], [(0, none)]]) = .ok (s', r) ∧
    Good [(.sendrecv (arg 1) (arg 2) false [[(1, some demoStat)], [(0, none)]], r)] ∧ r.out = .ended nullHandle (some (some demoStat)) :=
  ⟨_, _, rfl, good_of_goodB (by decide), by decide⟩

/-- Calls with `MPI_PROC_NULL` hand nothing over and return at once; a receive that asks for
the status gets that of `MPI_PROC_NULL`. -/
theorem C115_proc_null_partial (s : St) (a b : Args) (ms : List Msg) (ha : a.peer = procNull) (hb : b.peer = procNull) :
    step s (.send a ms) = .ok (s, ⟨.unit, [], []⟩) ∧
    step s (.recv a false ms) = .ok (s, ⟨.ended nullHandle (some (some procNullStatus)), [], []⟩) ∧
    step s (.sendrecv a b false ms) = .ok (s, ⟨.ended nullHandle (some (some procNullStatus)), [], []⟩) := by
  refine ⟨?_, ?_, ?_⟩
  · simp only [step, doSend]; rw [if_pos ha]
    simp [newPosts]
  · simp only [step]; rw [if_pos ha]; rfl
  · simp only [step, doSendrecv]; rw [if_pos ⟨ha, hb⟩]
    simp [writeNull, newPosts]

example : (arg procNull).peer = procNull := rfl

/-- With `MPI_STATUS_IGNORE` the same calls write through the null pointer. -/
theorem C115_ignore_refuted (s : St) (a b : Args) (ms : List Msg) (ha : a.peer = procNull) (hb : b.peer = procNull) :
    step s (.recv a true ms) = .error .nullDeref ∧ step s (.sendrecv a b true ms) = .error .nullDeref := by
  constructor
  · simp only [step]; rw [if_pos ha]; rfl
  · simp only [step, doSendrecv]; rw [if_pos ⟨ha, hb⟩]; rfl

end SST.Mpi.Req
