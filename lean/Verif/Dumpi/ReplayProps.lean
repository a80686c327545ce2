import Verif.Dumpi.ReplayLemmas
set_option autoImplicit false
/-!
# C123: replaying a DUMPI trace does what the traced program did

`Spec` says what a program is, what its trace is and what the replay should do.
-/

namespace Verif.Dumpi

/-- C123.  For every program of one rank that uses objects that there are, and whose trace has times
that do not run back, the replay of its trace reaches the end, computes for the time between the
calls, gives MPI the operations of the program in order with their sizes, peers, tags and
communicators, waits for the operations for which the program waited, and takes part in the same
collectives.  Missing: what the theorems below refute. -/
theorem C123_replay_partial (k : K) (ops : List Op) (hk : Sane k) (hl : Legal k (PS.init k) none ops)
    (hn : ops.length ≤ k.limit) :
    replay k (record k (PS.init k) ops) = (faithful k (PS.init k) none ops, none) := by
  obtain ⟨s, e, o⟩ := run_ok hk ops (PS.init k) none (St.init k) (r_init k) rfl (by simp only [St.init]; omega) hl
  simp only [replay, e, o]
  simp [St.init]

/-- Constants as in libundumpi: datatypes 11 (4 bytes) and 14 (8 bytes). -/
def demoK : K where
  reqNull := -1
  commWorld := 2
  commSelf := 3
  commNull := 1
  firstGroup := 5
  anySource := -2
  root := -4
  anyTag := -3
  firstType := 26
  base := fun n => if n = 11 then some 4 else if n = 14 then some 8 else none
  sizes := List.replicate 26 4
  scale := fun t => t
  limit := 1000

/-- A program: a struct type, a persistent send, a receive from any source, a communicator of a group, and
waits. -/
def demoOps : List Op :=
  [⟨.init, ⟨10, 0⟩, ⟨10, 500⟩⟩,
   ⟨.typeNew (.struct [(2, .base 11), (1, .base 14)]) 26, ⟨10, 600⟩, ⟨10, 700⟩⟩,
   ⟨.typeCommit (.user 0), ⟨10, 700⟩, ⟨10, 700⟩⟩,
   ⟨.sendInit 3 (.user 0) 1 7 0 40, ⟨10, 800⟩, ⟨10, 800⟩⟩,
   ⟨.irecv 5 (.base 11) none none 0 41, ⟨10, 900⟩, ⟨10, 999999999⟩⟩,
   ⟨.start 0, ⟨11, 0⟩, ⟨11, 1⟩⟩,
   ⟨.complete .waitall [some 0, none, some 1] [0, 1, 2], ⟨12, 0⟩, ⟨13, 0⟩⟩,
   ⟨.isend 1 (.base 14) 2 9 0 41, ⟨13, 5⟩, ⟨13, 6⟩⟩,
   ⟨.start 0, ⟨13, 10⟩, ⟨13, 11⟩⟩,
   ⟨.complete .testany [some 0, some 2] [1], ⟨13, 20⟩, ⟨13, 21⟩⟩,
   ⟨.complete .test [some 0] [], ⟨13, 30⟩, ⟨13, 31⟩⟩,
   ⟨.complete .waitsome [some 0] [0], ⟨13, 40⟩, ⟨13, 41⟩⟩,
   ⟨.requestFree 0, ⟨13, 50⟩, ⟨13, 51⟩⟩,
   ⟨.worldGroup 5, ⟨13, 60⟩, ⟨13, 61⟩⟩,
   ⟨.groupIncl 0 [2, 0] 6, ⟨13, 70⟩, ⟨13, 71⟩⟩,
   ⟨.commCreate 0 2 4, ⟨13, 80⟩, ⟨13, 81⟩⟩,
   ⟨.coll .bcast [([3], .user 0)] 1 2 true, ⟨13, 90⟩, ⟨13, 91⟩⟩,
   ⟨.commFree 2, ⟨13, 95⟩, ⟨13, 96⟩⟩,
   ⟨.finalize, ⟨14, 0⟩, ⟨14, 1⟩⟩]

instance (k : K) (ps : PS) (t : Ty) : Decidable (typeOk k ps t) := by cases t <;> (unfold typeOk; infer_instance)
instance (ps : PS) (c : Nat) : Decidable (commOk ps c) := by unfold commOk; infer_instance
instance (k : K) (ps : PS) (i : Int) : Decidable (freshReq k ps i) := by unfold freshReq; infer_instance
instance (k : K) (ps : PS) (i : Int) : Decidable (freshComm k ps i) := by unfold freshComm; infer_instance
instance (ps : PS) (r : Nat) : Decidable (canStart ps r) := by unfold canStart; split <;> infer_instance
instance (ps : PS) (r : Option Nat) : Decidable (canWait ps r) := by
  unfold canWait; split
  · infer_instance
  · split <;> infer_instance
instance (w : Way) (a : List (Option Nat)) (b : List Nat) : Decidable (wayOk w a b) := by
  cases w <;> (unfold wayOk; infer_instance)
instance (k : K) (ps : PS) (b : Body) : Decidable (allowed k ps b) := by
  cases b <;> (unfold allowed; infer_instance)
instance (c : Clock) : Decidable (clockOk c) := by unfold clockOk; infer_instance
instance (l : Option Clock) (c : Clock) : Decidable (after l c) := by unfold after; split <;> infer_instance
instance legalDec (k : K) : (ps : PS) → (last : Option Clock) → (ops : List Op) → Decidable (Legal k ps last ops)
  | _, _, [] => isTrue trivial
  | ps, last, op :: ops =>
    have := legalDec k (does k ps op.body).2 (lastAfter last op) ops
    inferInstanceAs (Decidable (allowed k ps op.body ∧ clockOk op.start ∧ clockOk op.stop ∧ after last op.start ∧
      Legal k (does k ps op.body).2 (lastAfter last op) ops))

example : Sane demoK ∧ Legal demoK (PS.init demoK) none demoOps ∧ demoOps.length ≤ demoK.limit ∧
    (faithful demoK (PS.init demoK) none demoOps).filter (fun o => match o with | .compute _ => false | _ => true) =
      [.init, .post 0 ⟨false, 20, -2, -1, 0⟩, .post 1 ⟨true, 48, 1, 7, 0⟩, .await 1, .await 0,
       .post 2 ⟨true, 8, 2, 9, 0⟩, .post 3 ⟨true, 48, 1, 7, 0⟩, .await 2, .await 3, .newGroup 0 [2, 0] 2,
       .newComm (.create 2) 0 2, .coll .bcast [[48]] 1 2, .freeComm 2, .finalize] := by
  refine ⟨by unfold Sane; decide, by decide +kernel, by decide, by decide +kernel⟩

/-! ## Times -/

/-- The time that the replay computes. -/
def computed : List Out → Int
  | [] => 0
  | .compute t :: l => t + computed l
  | _ :: l => computed l

/-- The time that the program spent in calls. -/
def spent : List Op → Int
  | [] => 0
  | op :: ops => ns op.stop - ns op.start + spent ops

/-- The end of the last call. -/
def finish (t : Clock) : List Op → Clock
  | [] => t
  | op :: ops => finish op.stop ops

theorem computed_append (a b : List Out) : computed (a ++ b) = computed a + computed b := by
  induction a with
  | nil => simp [computed]
  | cons x a ih => cases x <;> simp only [List.cons_append, computed, ih] <;> omega

theorem computed_finish (r : Option Nat) (ps : PS) : computed (finishReq r ps).1 = 0 := by
  unfold finishReq
  split
  · rfl
  · split
    · dsimp only; split <;> rfl
    · rfl

theorem computed_start (r : Nat) (ps : PS) : computed (startReq r ps).1 = 0 := by
  unfold startReq
  split <;> rfl

theorem computed_collect {α : Type} (f : α → PS → List Out × PS) (h : ∀ a ps, computed (f a ps).1 = 0) (l : List α) :
    ∀ ps, computed (collect f l ps).1 = 0 := by
  induction l with
  | nil => intro ps; rfl
  | cons a l ih => intro ps; simp only [collect, computed_append, h, ih]; rfl

theorem computed_does (k : K) (ps : PS) (b : Body) : computed (does k ps b).1 = 0 := by
  cases b with
  | start r => exact computed_start r ps
  | startall rs => exact computed_collect _ computed_start rs ps
  | complete way rs fin => exact computed_collect _ (fun i ps => computed_finish _ ps) fin ps
  | _ => rfl

theorem computed_faithful (k : K) (hs : k.scale = fun t => t) (ops : List Op) :
    ∀ (ps : PS) (t : Clock), Legal k ps (some t) ops →
      computed (faithful k ps (some t) ops) + spent ops = ns (finish t ops) - ns t := by
  induction ops with
  | nil => intro ps t _; simp [faithful, computed, spent, finish]
  | cons op ops ih =>
    intro ps t h
    obtain ⟨_, _, _, h4, h5⟩ := h
    have hl : lastAfter (some t) op = some op.stop := by simp [lastAfter]
    rw [hl] at h5
    have := ih _ _ h5
    have h4' : ns t ≤ ns op.start := h4
    simp only [faithful, hl, computed_append, computed_does, gap, hs, computed, spent, finish]
    omega

/-- C123.  No time is lost or made up: what the replay computes and what the program spent in calls after
MPI_Init are together the time from the end of MPI_Init to the end of the last call. -/
theorem C123_time_partial (k : K) (op : Op) (ops : List Op) (hk : Sane k) (hi : op.body = .init)
    (hs : k.scale = fun t => t) (hl : Legal k (PS.init k) none (op :: ops)) (hn : (op :: ops).length ≤ k.limit) :
    computed (replay k (record k (PS.init k) (op :: ops))).1 + spent ops = ns (finish op.stop ops) - ns op.stop := by
  rw [C123_replay_partial k (op :: ops) hk hl hn]
  obtain ⟨_, _, _, _, h5⟩ := hl
  have he : lastAfter none op = some op.stop := by simp [lastAfter, hi]
  rw [he] at h5
  have := computed_faithful k hs ops _ _ h5
  simp only [faithful, he, computed_append, computed_does, gap, computed]
  omega

example : computed (replay demoK (record demoK (PS.init demoK) demoOps)).1 + spent demoOps = 4000000001 := by decide +kernel

/-! ## Every trace -/

/-- Operations are numbered as they are given to MPI, those waited for were given before, and none is waited
for twice; `n` operations were given and `done` waited for. -/
def ordered : Nat → List Nat → List Out → Prop
  | _, _, [] => True
  | n, done, .post m _ :: l => m = n ∧ ordered (n + 1) done l
  | n, done, .await m :: l => m < n ∧ m ∉ done ∧ ordered n (m :: done) l
  | n, done, _ :: l => ordered n done l

/-- How many operations were given to MPI. -/
def posts : List Out → Nat
  | [] => 0
  | .post _ _ :: l => posts l + 1
  | _ :: l => posts l

/-- Which were waited for. -/
def awaits : List Out → List Nat
  | [] => []
  | .await n :: l => n :: awaits l
  | _ :: l => awaits l

/-- Neither gives MPI an operation nor waits for one. -/
def quiet : Out → Bool
  | .post _ _ | .await _ => false
  | _ => true

theorem posts_append (a b : List Out) : posts (a ++ b) = posts a + posts b := by
  induction a with
  | nil => simp [posts]
  | cons x a ih => cases x <;> simp only [List.cons_append, posts, ih] <;> omega

theorem awaits_append (a b : List Out) : awaits (a ++ b) = awaits a ++ awaits b := by
  induction a with
  | nil => simp [awaits]
  | cons x a ih => cases x <;> simp only [List.cons_append, awaits, ih]

theorem ordered_congr (l : List Out) : ∀ (n : Nat) (d d' : List Nat), (∀ x, x ∈ d ↔ x ∈ d') → ordered n d l → ordered n d' l := by
  induction l with
  | nil => intro n d d' _ _; trivial
  | cons x l ih =>
    intro n d d' h ho
    cases x with
    | post m p => exact ⟨ho.1, ih _ d d' h ho.2⟩
    | await m =>
      refine ⟨ho.1, fun hm => ho.2.1 ((h m).mpr hm), ih _ (m :: d) (m :: d') ?_ ho.2.2⟩
      intro x; simp [h x]
    | _ => exact ih _ d d' h ho

theorem ordered_append (l m : List Out) : ∀ (n : Nat) (d : List Nat), ordered n d l →
    ordered (n + posts l) (awaits l ++ d) m → ordered n d (l ++ m) := by
  induction l with
  | nil => intro n d _ h; simpa [posts, awaits] using h
  | cons x l ih =>
    intro n d h h2
    cases x with
    | post a p =>
      refine ⟨h.1, ih _ d h.2 ?_⟩
      simp only [posts, awaits] at h2
      rw [show n + 1 + posts l = n + (posts l + 1) by omega]
      exact h2
    | await a =>
      refine ⟨h.1, h.2.1, ih _ (a :: d) h.2.2 ?_⟩
      refine ordered_congr m _ _ _ ?_ h2
      intro x
      simp only [awaits, List.cons_append, List.mem_cons, List.mem_append]
      constructor
      · rintro (h | h | h)
        · exact .inr (.inl h)
        · exact .inl h
        · exact .inr (.inr h)
      · rintro (h | h | h)
        · exact .inr (.inl h)
        · exact .inl h
        · exact .inr (.inr h)
    | _ => exact ih _ d h h2

/-- The operations of requests that are not complete were given to MPI, not waited for, and are different. -/
structure Inv (s : St) : Prop where
  ord : ordered 0 [] s.out
  next : s.next = posts s.out
  open_ : ∀ (r : Int) (o : Obj) (n : Nat), s.reqs r = some o → o.done = false → o.op = some n →
    n < s.next ∧ n ∉ awaits s.out
  inj : ∀ (r r' : Int) (o o' : Obj) (n : Nat), s.reqs r = some o → s.reqs r' = some o' → o.done = false →
    o'.done = false → o.op = some n → o'.op = some n → r = r'
  wait : ∀ n ∈ awaits s.out, n < s.next

theorem inv_quiet {s s' : St} {l : List Out} (h : Inv s) (hq : ∀ o ∈ l, quiet o = true) (ho : s'.out = s.out ++ l)
    (hr : s'.reqs = s.reqs) (hn : s'.next = s.next) : Inv s' := by
  have hp : posts l = 0 ∧ awaits l = [] ∧ ∀ n d, ordered n d l := by
    clear ho
    induction l with
    | nil => exact ⟨rfl, rfl, fun _ _ => trivial⟩
    | cons x l ih =>
      have hx := hq x (List.mem_cons_self ..)
      obtain ⟨a, b, c⟩ := ih (fun o ho => hq o (List.mem_cons_of_mem _ ho))
      cases x with
      | post m p => cases hx
      | await m => cases hx
      | _ => exact ⟨a, b, c⟩
  obtain ⟨h1, h2, h3⟩ := hp
  have ha : awaits s'.out = awaits s.out := by rw [ho, awaits_append, h2]; simp
  refine ⟨?_, ?_, ?_, ?_, ?_⟩
  · rw [ho]; exact ordered_append _ _ _ _ h.ord (h3 _ _)
  · rw [ho, posts_append, h1, hn, h.next]; rfl
  · rw [hr, hn, ha]; exact h.open_
  · rw [hr]; exact h.inj
  · rw [ha, hn]; exact h.wait

theorem inv_post {s : St} (h : Inv s) (p : Post) : Inv (post p s) := by
  refine ⟨?_, ?_, ?_, h.inj, ?_⟩
  · refine ordered_append _ _ _ _ h.ord ⟨?_, trivial⟩
    rw [h.next]; omega
  · simp [post, posts_append, posts, h.next]
  · intro r o n h1 h2 h3
    obtain ⟨a, b⟩ := h.open_ r o n h1 h2 h3
    refine ⟨?_, ?_⟩
    · simp only [post]; omega
    · simpa [post, awaits_append, awaits] using b
  · intro n hn
    simp only [post, awaits_append, awaits, List.append_nil] at hn ⊢
    have := h.wait n hn
    omega

/-- An entry of the table that is not of an operation that is not complete. -/
theorem inv_set_done {s : St} (h : Inv s) (r : Int) (v : Option Obj)
    (hv : ∀ o, v = some o → o.done = true ∨ o.op = none) : Inv { s with reqs := set s.reqs r v } := by
  refine ⟨h.ord, h.next, ?_, ?_, h.wait⟩
  · intro x o n h1 h2 h3
    simp only [set] at h1
    split at h1
    · rcases hv o h1 with hd | hd
      · rw [hd] at h2; cases h2
      · rw [hd] at h3; cases h3
    · exact h.open_ x o n h1 h2 h3
  · intro x y o o' n h1 h2 h3 h4 h5 h6
    simp only [set] at h1 h2
    split at h1
    · rcases hv o h1 with hd | hd
      · rw [hd] at h3; cases h3
      · rw [hd] at h5; cases h5
    · split at h2
      · rcases hv o' h2 with hd | hd
        · rw [hd] at h4; cases h4
        · rw [hd] at h6; cases h6
      · exact h.inj x y o o' n h1 h2 h3 h4 h5 h6

/-- A request for the operation that was just given to MPI. -/
theorem inv_new {s : St} (h : Inv s) (p : Post) (r : Int) (o : Obj) (ho : o.op = some s.next) :
    Inv (addReq r o (post p s)) := by
  have hi := inv_post h p
  refine ⟨hi.ord, hi.next, ?_, ?_, hi.wait⟩
  · intro x o' n h1 h2 h3
    simp only [addReq, set] at h1
    split at h1
    · cases h1
      rw [ho] at h3
      cases h3
      refine ⟨by simp [addReq, post], ?_⟩
      intro hm
      simp only [addReq, post, awaits_append, awaits, List.append_nil] at hm
      have := h.wait _ hm
      omega
    · exact hi.open_ x o' n h1 h2 h3
  · intro x y a b n h1 h2 h3 h4 h5 h6
    simp only [addReq, set] at h1 h2
    split at h1 <;> split at h2
    · rename_i e1 e2; rw [e1, e2]
    · cases h1
      rw [ho] at h5
      cases h5
      have := (h.open_ y b _ h2 h4 h6).1
      omega
    · cases h2
      rw [ho] at h6
      cases h6
      have := (h.open_ x a _ h1 h3 h5).1
      omega
    · exact hi.inj x y a b n h1 h2 h3 h4 h5 h6

/-- A blocking operation. -/
theorem inv_await {s : St} (h : Inv s) (n : Nat) (h1 : n < s.next) (h2 : n ∉ awaits s.out)
    (h3 : ∀ (r : Int) (o : Obj), s.reqs r = some o → o.done = false → o.op ≠ some n) : Inv (awaitOp n s) := by
  refine ⟨?_, ?_, ?_, h.inj, ?_⟩
  · refine ordered_append _ _ _ _ h.ord ⟨?_, ?_, trivial⟩
    · rw [← h.next]; omega
    · simpa using h2
  · simp [awaitOp, posts_append, posts, h.next]
  · intro r o m a b c
    obtain ⟨x, y⟩ := h.open_ r o m a b c
    refine ⟨x, ?_⟩
    simp only [awaitOp, awaits_append, awaits, List.mem_append, List.mem_singleton]
    rintro (hh | hh)
    · exact y hh
    · subst hh; exact h3 r o a b c
  · intro m hm
    simp only [awaitOp, awaits_append, awaits, List.mem_append, List.mem_singleton] at hm ⊢
    rcases hm with hh | hh
    · exact h.wait m hh
    · omega

theorem inv_block {s : St} (h : Inv s) (p : Post) : Inv (awaitOp s.next (post p s)) := by
  refine inv_await (inv_post h p) _ (by simp [post]) ?_ ?_
  · intro hm
    simp only [post, awaits_append, awaits, List.append_nil] at hm
    have := h.wait _ hm
    omega
  · intro r o a b c
    have := (h.open_ r o _ a b c).1
    omega

theorem inv_doWait {s s' : St} (h : Inv s) {r : Int} (e : doWait r s = .ok s') : Inv s' := by
  unfold doWait at e
  split at e
  · cases e; exact h
  · split at e
    · cases e
    · rename_i o ho
      split at e
      · rename_i hd
        cases e
        refine inv_set_done h r _ ?_
        intro o' ho'
        split at ho'
        · cases ho'; exact .inl hd
        · cases ho'
      · rename_i hd
        split at e
        · cases e
        · rename_i n hn
          cases e
          have hd' : o.done = false := by simpa using hd
          have hi : Inv { s with reqs := set s.reqs r (if o.pers.isSome then some { o with done := true } else none) } := by
            refine inv_set_done h r _ ?_
            intro o' ho'
            split at ho'
            · cases ho'; exact .inl rfl
            · cases ho'
          obtain ⟨a, b⟩ := h.open_ r o n ho hd' hn
          refine inv_await hi n a b ?_
          intro x y hx hy hz
          simp only [set] at hx
          split at hx
          · split at hx
            · cases hx; cases hy
            · cases hx
          · rename_i hne
            exact hne (h.inj x r y o n hx ho hy hd' hz hn)

theorem inv_doStart {s s' : St} (h : Inv s) {r : Int} (e : doStart r s = .ok s') : Inv s' := by
  unfold doStart at e
  split at e
  · cases e
  · split at e
    · cases e
    · split at e
      · cases e
        exact inv_set_done h r _ (by intro o ho; cases ho; exact .inl rfl)
      · rename_i p _ _
        by_cases hg : (if p.send = true then sendable p.peer else receivable p.peer) = true
        · rw [if_pos hg] at e
          cases e
          exact inv_new h _ r _ rfl
        · rw [if_neg hg] at e
          cases e

theorem inv_each {α : Type} {f : α → St → Except Stop St} (hf : ∀ a s s', Inv s → f a s = .ok s' → Inv s') (l : List α) :
    ∀ s s', Inv s → each f l s = .ok s' → Inv s' := by
  induction l with
  | nil => intro s s' h e; cases e; exact h
  | cons a l ih =>
    intro s s' h e
    simp only [each] at e
    split at e
    · rename_i s1 e1; exact ih s1 s' (hf a s s1 h e1) e
    · cases e

/-- The table of requests, the log and the counter are the same. -/
def Same (s s' : St) : Prop := s'.out = s.out ∧ s'.reqs = s.reqs ∧ s'.next = s.next

theorem same_getType {k : K} {id n : Nat} {s s' : St} (e : getType k id s = .ok (n, s')) : Same s s' := by
  unfold getType at e
  split at e
  · cases e; exact ⟨rfl, rfl, rfl⟩
  · split at e
    · split at e
      · cases e; exact ⟨rfl, rfl, rfl⟩
      · cases e
    · cases e; exact ⟨rfl, rfl, rfl⟩

theorem same_getTypes {k : K} (ids : List Nat) : ∀ {l : List Nat} {s s' : St}, getTypes k ids s = .ok (l, s') → Same s s' := by
  induction ids with
  | nil => intro l s s' e; cases e; exact ⟨rfl, rfl, rfl⟩
  | cons i ids ih =>
    intro l s s' e
    simp only [getTypes] at e
    split at e
    · cases e
    · rename_i n s1 e1
      split at e
      · cases e
      · rename_i ns s2 e2
        cases e
        have a := same_getType e1
        have b := ih e2
        exact ⟨by rw [b.1, a.1], by rw [b.2.1, a.2.1], by rw [b.2.2, a.2.2]⟩

theorem inv_same {s s' : St} (h : Inv s) (e : Same s s') : Inv s' :=
  inv_quiet (l := []) h (by simp) (by simp [e.1]) e.2.1 e.2.2

theorem inv_recv {s s' : St} (h : Inv s) {b c : Nat} {p g : Int} (e : mpiRecv b p g c s = .ok s') : Inv s' := by
  unfold mpiRecv at e
  split at e
  · cases e
  · split at e
    · cases e; exact inv_block h _
    · cases e

theorem inv_sendrecv {s s' : St} (h : Inv s) {b b' c : Nat} {p g p' g' : Int}
    (e : mpiSendrecv b p g b' p' g' c s = .ok s') : Inv s' := by
  unfold mpiSendrecv at e
  split at e
  · cases e
  · split at e
    · exact inv_recv h e
    · split at e
      · cases e
        have h1 := inv_post h ⟨true, b, p, g, c⟩
        have h2 := inv_block h1 ⟨false, b', p', g', c⟩
        refine inv_await h2 s.next ?_ ?_ ?_
        · simp only [awaitOp, post]; omega
        · intro hm
          simp only [awaitOp, post, awaits_append, awaits, List.append_nil, List.mem_append, List.mem_singleton] at hm
          rcases hm with hm | hm
          · have := h.wait _ hm; omega
          · omega
        · intro r o x y z
          have := (h.open_ r o _ x y z).1
          omega
      · cases e

theorem inv_act {k : K} {c : Rec} {s s' : St} (h : Inv s) (e : act k c s = .ok s') : Inv s' := by
  cases c with
  | send n t d g c =>
    simp only [act, bind, Except.bind] at e
    split at e
    · cases e
    · rename_i v e1
      split at e
      · cases e
      · have h1 := inv_same h (same_getType (n := v.1) (s' := v.2) e1)
        unfold mpiSend at e
        split at e
        · cases e; exact h1
        · split at e
          · cases e; exact inv_block h1 _
          · cases e
  | recv n t d g c =>
    simp only [act, bind, Except.bind] at e
    split at e
    · cases e
    · rename_i v e1
      split at e
      · cases e
      · exact inv_recv (inv_same h (same_getType (n := v.1) (s' := v.2) e1)) e
  | isend n t d g c r =>
    simp only [act, bind, Except.bind] at e
    split at e
    · cases e
    · rename_i v e1
      split at e
      · cases e
      · have h1 := inv_same h (same_getType (n := v.1) (s' := v.2) e1)
        unfold mpiIsend at e
        split at e
        · cases e; exact inv_set_done h1 r _ (by intro o ho; cases ho; exact .inl rfl)
        · split at e
          · cases e; exact inv_new h1 _ r _ rfl
          · cases e
  | irecv n t d g c r =>
    simp only [act, bind, Except.bind] at e
    split at e
    · cases e
    · rename_i v e1
      split at e
      · cases e
      · have h1 := inv_same h (same_getType (n := v.1) (s' := v.2) e1)
        unfold mpiIrecv at e
        split at e
        · cases e; exact inv_set_done h1 r _ (by intro o ho; cases ho; exact .inl rfl)
        · split at e
          · cases e; exact inv_new h1 _ r _ rfl
          · cases e
  | sendInit n t d g c r =>
    simp only [act, bind, Except.bind] at e
    split at e
    · cases e
    · rename_i v e1
      split at e
      · cases e
      · have h1 := inv_same h (same_getType (n := v.1) (s' := v.2) e1)
        cases e
        exact inv_set_done h1 r _ (by intro o ho; cases ho; exact .inr rfl)
  | recvInit n t d g c r =>
    simp only [act, bind, Except.bind] at e
    split at e
    · cases e
    · rename_i v e1
      split at e
      · cases e
      · have h1 := inv_same h (same_getType (n := v.1) (s' := v.2) e1)
        cases e
        exact inv_set_done h1 r _ (by intro o ho; cases ho; exact .inr rfl)
  | start r => exact inv_doStart h e
  | startall rs => exact inv_each (fun _ _ _ h e => inv_doStart h e) rs s s' h e
  | wait r => exact inv_doWait h e
  | waitall rs => exact inv_each (fun _ _ _ h e => inv_doWait h e) rs s s' h e
  | waitany rs i =>
    simp only [act, waitAt] at e
    split at e
    · exact inv_doWait h e
    · cases e; exact h
  | waitsome rs is =>
    refine inv_each (f := fun (i : Nat) => waitAt k rs i) ?_ is s s' h e
    intro i a b hi e
    simp only [waitAt] at e
    split at e
    · exact inv_doWait hi e
    · cases e; exact hi
  | test f r =>
    simp only [act] at e
    split at e
    · exact inv_doWait h e
    · cases e; exact h
  | testall f rs =>
    simp only [act] at e
    split at e
    · exact inv_each (fun _ _ _ h e => inv_doWait h e) rs s s' h e
    · cases e; exact h
  | testany f rs i =>
    simp only [act, waitAt] at e
    split at e
    · split at e
      · exact inv_doWait h e
      · cases e; exact h
    · cases e; exact h
  | testsome rs is =>
    refine inv_each (f := fun (i : Nat) => waitAt k rs i) ?_ is s s' h e
    intro i a b hi e
    simp only [waitAt] at e
    split at e
    · exact inv_doWait hi e
    · cases e; exact hi
  | probe p g c =>
    simp only [act, bind, Except.bind] at e
    split at e
    · cases e
    · cases e; exact inv_quiet h (by simp [quiet]) rfl rfl rfl
  | sendrecv n t d g n' t' d' g' c =>
    simp only [act, bind, Except.bind] at e
    split at e
    · cases e
    · rename_i v e1
      split at e
      · cases e
      · rename_i v' e2
        split at e
        · cases e
        · have h1 := inv_same h (same_getType (n := v.1) (s' := v.2) e1)
          exact inv_sendrecv (inv_same h1 (same_getType (n := v'.1) (s' := v'.2) e2)) e
  | sendrecvReplace n t d g d' g' c =>
    simp only [act, bind, Except.bind] at e
    split at e
    · cases e
    · rename_i v e1
      split at e
      · cases e
      · exact inv_sendrecv (inv_same h (same_getType (n := v.1) (s' := v.2) e1)) e
  | typeNew con new =>
    simp only [act, bind, Except.bind] at e
    split at e
    · cases e
    · rename_i v e1
      have h1 := inv_same h (same_getTypes _ (l := v.1) (s' := v.2) e1)
      unfold addType at e
      split at e
      · cases e
      · cases e; exact inv_same h1 ⟨rfl, rfl, rfl⟩
  | typeCommit t =>
    simp only [act, bind, Except.bind] at e
    split at e
    · cases e
    · rename_i v e1
      cases e
      exact inv_same h (same_getType (n := v.1) (s' := v.2) e1)
  | typeFree t =>
    simp only [act, bind, Except.bind] at e
    split at e
    · cases e
    · rename_i v e1
      cases e
      exact inv_same h (same_getType (n := v.1) (s' := v.2) e1)
  | barrier c =>
    simp only [act, bind, Except.bind] at e
    split at e
    · cases e
    · cases e; exact inv_quiet h (by simp [quiet]) rfl rfl rfl
  | coll kind args root c atRoot =>
    simp only [act, bind, Except.bind] at e
    split at e
    · cases e
    · rename_i v e1
      have h1 := inv_same h (same_getTypes _ (l := v.1) (s' := v.2) e1)
      split at e
      · cases e
      · cases e; exact inv_quiet h1 (by simp [quiet]) rfl rfl rfl
  | groupIncl g ranks new =>
    simp only [act, bind, Except.bind] at e
    split at e
    · cases e
    · cases e; exact inv_quiet h (by simp [quiet]) rfl rfl rfl
  | commDup old new =>
    simp only [act, bind, Except.bind] at e
    split at e
    · cases e
    · cases e; exact inv_quiet h (by simp [quiet]) rfl rfl rfl
  | commCreate old g m new =>
    simp only [act, bind, Except.bind] at e
    split at e
    · cases e
    · split at e
      · cases e
      · cases e; exact inv_quiet h (by simp [quiet]) rfl rfl rfl
  | commSplit old color key new =>
    simp only [act, bind, Except.bind] at e
    split at e
    · cases e
    · split at e
      · cases e
      · split at e
        · cases e; exact inv_quiet h (by simp [quiet]) rfl rfl rfl
        · cases e; exact inv_quiet h (by simp [quiet]) rfl rfl rfl
  | commFree c =>
    simp only [act, bind, Except.bind] at e
    split at e
    · cases e
    · cases e; exact inv_quiet h (by simp [quiet]) rfl rfl rfl
  | init => cases e; exact inv_quiet h (by simp [quiet]) rfl rfl rfl
  | initThread => cases e; exact inv_quiet h (by simp [quiet]) rfl rfl rfl
  | finalize => cases e; exact inv_quiet h (by simp [quiet]) rfl rfl rfl
  | pass => cases e; exact h
  | unimplemented => cases e

theorem step_parts {k : K} {e : Entry} {s s' : St} (h : step k e s = .ok s') :
    ∃ a b c, count k e.call s = .ok a ∧ startMpi k e a = .ok b ∧ act k e.call b = .ok c ∧
      s' = (if e.call = .init then { endMpi e c with inited := true } else endMpi e c) := by
  simp only [step, bind, Except.bind] at h
  split at h
  · cases h
  · rename_i a ha
    split at h
    · cases h
    · rename_i b hb
      split at h
      · cases h
      · rename_i c hc
        cases h
        exact ⟨a, b, c, ha, hb, hc, rfl⟩

theorem count_same {k : K} {c : Rec} {s s' : St} (h : count k c s = .ok s') : Same s s' := by
  unfold count at h
  split at h
  · cases h; split <;> exact ⟨rfl, rfl, rfl⟩
  · split at h
    · cases h
    · cases h; split <;> exact ⟨rfl, rfl, rfl⟩
  · cases h; exact ⟨rfl, rfl, rfl⟩

theorem inv_step {k : K} {e : Entry} {s s' : St} (h : Inv s) (hs : step k e s = .ok s') : Inv s' := by
  obtain ⟨a, b, c, h1, h2, h3, rfl⟩ := step_parts hs
  have ia := inv_same h (count_same h1)
  have ib : Inv b := by
    unfold startMpi at h2
    split at h2
    · cases h2; exact ia
    · split at h2
      · split at h2
        · cases h2
        · cases h2; exact inv_quiet ia (by simp [quiet]) rfl rfl rfl
      · cases h2; exact ia
  have ic := inv_act ib h3
  split <;> exact inv_same ic ⟨rfl, rfl, rfl⟩

theorem inv_run {k : K} (es : List Entry) : ∀ s, Inv s → Inv (run k es s).1 := by
  induction es with
  | nil => intro s h; exact h
  | cons e es ih =>
    intro s h
    simp only [run]
    split
    · rename_i s1 e1; exact ih s1 (inv_step h e1)
    · exact h

/-- C123.  Whatever the trace, the replay waits only for operations that it gave to MPI before, and for none of
them twice. -/
theorem C123_waits (k : K) (es : List Entry) : ordered 0 [] (replay k es).1 := by
  have h0 : Inv (St.init k) := ⟨trivial, rfl, (by intro r o n h; cases h), (by intro r r' o o' n h; cases h), (by intro n h; cases h)⟩
  have h := inv_run (k := k) es _ h0
  unfold replay
  split
  · rename_i s e
    rw [e] at h
    exact ordered_append _ _ _ _ h.ord trivial
  · rename_i s x e
    rw [e] at h
    exact h.ord

example : ¬ ordered 0 [] [.post 0 ⟨true, 1, 1, 1, 0⟩, .await 0, .await 0] ∧ ¬ ordered 0 [] [.await 0] := by
  simp [ordered]

/-! ## What goes wrong -/

/-- A record that always stops the replay. -/
theorem run_stops {k : K} {es : List Entry} {e : Entry} (he : e ∈ es) (ha : ∀ s s', act k e.call s ≠ .ok s') :
    ∀ s, (run k es s).2 ≠ none := by
  induction es with
  | nil => cases he
  | cons x es ih =>
    intro s
    simp only [run]
    split
    · rename_i s1 e1
      rcases List.mem_cons.mp he with h | h
      · subst h
        obtain ⟨a, b, c, _, _, h3, _⟩ := step_parts e1
        exact absurd h3 (ha b c)
      · exact ih h s1
    · simp

theorem replay_stops {k : K} {es : List Entry} {e : Entry} (he : e ∈ es) (ha : ∀ s s', act k e.call s ≠ .ok s') :
    (replay k es).2 ≠ none := by
  have := run_stops he ha (St.init k)
  unfold replay
  split
  · simp
  · rename_i s x h1 h2
    rw [h2] at this
    exact this

/-- C123.  A blocking receive from MPI_PROC_NULL stops the replay: `p` is any negative number that is not a
constant for MPI_ANY_SOURCE or MPI_ROOT. -/
theorem C123_proc_null_refuted (k : K) (es : List Entry) (e : Entry) (n t : Nat) (p g c : Int) (he : e ∈ es)
    (hc : e.call = .recv n t p g c) (hp : p < 0) (h1 : p ≠ k.anySource) (h2 : p ≠ k.root) (h3 : p ≠ mpiAnySource) :
    (replay k es).2 ≠ none := by
  refine replay_stops he ?_
  intro s s' h
  rw [hc] at h
  simp only [act, bind, Except.bind] at h
  split at h
  · cases h
  · split at h
    · cases h
    · unfold mpiRecv tpeer at h
      rw [if_neg h1, if_neg h2] at h
      split at h
      · cases h
      · have hr : receivable p = false := by
          simp only [receivable, Bool.or_eq_false_iff, decide_eq_false_iff_not]
          exact ⟨by omega, h3⟩
        rw [hr] at h
        cases h

/-- The same for MPI_Sendrecv. -/
theorem C123_sendrecv_proc_null_refuted (k : K) (es : List Entry) (e : Entry) (n t n' t' : Nat) (d g p g' c : Int)
    (he : e ∈ es) (hc : e.call = .sendrecv n t d g n' t' p g' c) (hp : p < 0) (h1 : p ≠ k.anySource)
    (h2 : p ≠ k.root) (h3 : p ≠ mpiAnySource) : (replay k es).2 ≠ none := by
  refine replay_stops he ?_
  intro s s' h
  rw [hc] at h
  simp only [act, bind, Except.bind] at h
  split at h
  · cases h
  · split at h
    · cases h
    · split at h
      · cases h
      · have hr : receivable p = false := by
          simp only [receivable, Bool.or_eq_false_iff, decide_eq_false_iff_not]
          exact ⟨by omega, h3⟩
        have ht : tpeer k p = p := by unfold tpeer; rw [if_neg h1, if_neg h2]
        simp only [mpiSendrecv, mpiRecv, ht, hr, Bool.and_false, Bool.false_eq_true, if_false] at h
        split at h
        · cases h
        · split at h <;> cases h

/-- C123.  A call that the replay does not have, as MPI_Type_create_struct or MPI_Cart_create, stops it. -/
theorem C123_unimplemented_refuted (k : K) (es : List Entry) (e : Entry) (he : e ∈ es) (hc : e.call = .unimplemented) :
    (replay k es).2 ≠ none := by
  refine replay_stops he ?_
  intro s s' h
  rw [hc] at h
  cases h

/-- C123.  A rank that leaves a split with MPI_UNDEFINED as colour stops the replay, if the tracer's
handle for MPI_COMM_NULL is not 0x04000000. -/
theorem C123_split_undefined_refuted (k : K) (es : List Entry) (e : Entry) (c color key id : Int) (he : e ∈ es)
    (hc : e.call = .commSplit c color key id) (h1 : color < 0) (h2 : id ≠ mpiCommNull) : (replay k es).2 ≠ none := by
  refine replay_stops he ?_
  intro s s' h
  rw [hc] at h
  simp only [act, bind, Except.bind] at h
  split at h
  · cases h
  · rw [if_pos ⟨h1, h2⟩] at h
    cases h

/-- Whether MPI_Init was called stays, and no computation is added. -/
def Idle (s s' : St) : Prop := s'.inited = s.inited ∧ ∀ t, Out.compute t ∈ s'.out → Out.compute t ∈ s.out

theorem idle_trans {a b c : St} (h : Idle a b) (h' : Idle b c) : Idle a c :=
  ⟨by rw [h'.1, h.1], fun t ht => h.2 t (h'.2 t ht)⟩

theorem idle_getType {k : K} {id : Nat} {v : Nat × St} {s : St} (e : getType k id s = .ok v) : Idle s v.2 := by
  unfold getType at e
  split at e
  · cases e; exact ⟨rfl, fun _ h => h⟩
  · split at e
    · split at e
      · cases e; exact ⟨rfl, fun _ h => h⟩
      · cases e
    · cases e; exact ⟨rfl, fun _ h => h⟩

theorem idle_getTypes {k : K} (ids : List Nat) : ∀ {v : List Nat × St} {s : St}, getTypes k ids s = .ok v → Idle s v.2 := by
  induction ids with
  | nil => intro v s e; cases e; exact ⟨rfl, fun _ h => h⟩
  | cons i ids ih =>
    intro v s e
    simp only [getTypes] at e
    split at e
    · cases e
    · rename_i n s1 e1
      split at e
      · cases e
      · rename_i ns s2 e2
        cases e
        exact idle_trans (idle_getType e1) (ih (v := (ns, s2)) e2)

theorem idle_doWait {r : Int} {s s' : St} (e : doWait r s = .ok s') : Idle s s' := by
  unfold doWait at e
  repeat' split at e
  all_goals cases e
  all_goals exact ⟨rfl, fun t ht => by simpa [awaitOp] using ht⟩

theorem idle_doStart {r : Int} {s s' : St} (e : doStart r s = .ok s') : Idle s s' := by
  unfold doStart at e
  split at e
  · cases e
  · split at e
    · cases e
    · split at e
      · cases e; exact ⟨rfl, fun t ht => ht⟩
      · rename_i p _ _
        by_cases hg : (if p.send = true then sendable p.peer else receivable p.peer) = true
        · rw [if_pos hg] at e
          cases e
          exact ⟨rfl, fun t ht => by simpa [addReq, post] using ht⟩
        · rw [if_neg hg] at e
          cases e

theorem idle_each {α : Type} {f : α → St → Except Stop St} (hf : ∀ a s s', f a s = .ok s' → Idle s s') (l : List α) :
    ∀ s s', each f l s = .ok s' → Idle s s' := by
  induction l with
  | nil => intro s s' e; cases e; exact ⟨rfl, fun _ h => h⟩
  | cons a l ih =>
    intro s s' e
    simp only [each] at e
    split at e
    · rename_i s1 e1; exact idle_trans (hf a s s1 e1) (ih s1 s' e)
    · cases e

theorem idle_waitAt {k : K} {rs : List Int} {i : Int} {s s' : St} (e : waitAt k rs i s = .ok s') : Idle s s' := by
  unfold waitAt at e
  split at e
  · exact idle_doWait e
  · cases e; exact ⟨rfl, fun _ h => h⟩

theorem idle_act {k : K} {c : Rec} {s s' : St} (e : act k c s = .ok s') : Idle s s' := by
  cases c with
  | start r => exact idle_doStart e
  | startall rs => exact idle_each (fun _ _ _ e => idle_doStart e) rs s s' e
  | wait r => exact idle_doWait e
  | waitall rs => exact idle_each (fun _ _ _ e => idle_doWait e) rs s s' e
  | waitany rs i => exact idle_waitAt e
  | waitsome rs is => exact idle_each (f := fun (i : Nat) => waitAt k rs i) (fun _ _ _ e => idle_waitAt e) is s s' e
  | test f r =>
    simp only [act] at e
    split at e
    · exact idle_doWait e
    · cases e; exact ⟨rfl, fun _ h => h⟩
  | testall f rs =>
    simp only [act] at e
    split at e
    · exact idle_each (fun _ _ _ e => idle_doWait e) rs s s' e
    · cases e; exact ⟨rfl, fun _ h => h⟩
  | testany f rs i =>
    simp only [act] at e
    split at e
    · exact idle_waitAt e
    · cases e; exact ⟨rfl, fun _ h => h⟩
  | testsome rs is => exact idle_each (f := fun (i : Nat) => waitAt k rs i) (fun _ _ _ e => idle_waitAt e) is s s' e
  | init => cases e; exact ⟨rfl, fun t ht => by simpa using ht⟩
  | initThread => cases e; exact ⟨rfl, fun t ht => by simpa using ht⟩
  | finalize => cases e; exact ⟨rfl, fun t ht => by simpa using ht⟩
  | pass => cases e; exact ⟨rfl, fun t ht => ht⟩
  | unimplemented => cases e
  | typeNew con new =>
    simp only [act, bind, Except.bind, addType] at e
    split at e
    · cases e
    · rename_i v e1
      refine idle_trans (idle_getTypes _ e1) ?_
      split at e
      · cases e
      · cases e; exact ⟨rfl, fun t ht => ht⟩
  | coll kind args root c atRoot =>
    simp only [act, bind, Except.bind] at e
    split at e
    · cases e
    · rename_i v e1
      refine idle_trans (idle_getTypes _ e1) ?_
      split at e
      · cases e
      · cases e; exact ⟨rfl, fun t ht => by simpa using ht⟩
  | sendrecv n t d g n' t' d' g' c =>
    simp only [act, bind, Except.bind] at e
    split at e
    · cases e
    · rename_i v e1
      refine idle_trans (idle_getType e1) ?_
      split at e
      · cases e
      · rename_i v' e2
        refine idle_trans (idle_getType e2) ?_
        simp only [mpiSendrecv, mpiRecv] at e
        repeat' split at e
        all_goals cases e
        all_goals exact ⟨rfl, fun t ht => by simpa [awaitOp, post] using ht⟩
  | send | recv | isend | irecv | sendInit | recvInit | sendrecvReplace | typeCommit | typeFree =>
    simp only [act, bind, Except.bind] at e
    split at e
    · cases e
    · rename_i v e1
      refine idle_trans (idle_getType e1) ?_
      try simp only [mpiSend, mpiRecv, mpiIsend, mpiIrecv, mpiSendrecv] at e
      repeat' split at e
      all_goals cases e
      all_goals exact ⟨rfl, fun t ht => by simpa [awaitOp, post, addReq] using ht⟩
  | _ =>
    simp only [act, bind, Except.bind] at e
    repeat' split at e
    all_goals cases e
    all_goals exact ⟨rfl, fun t ht => by simpa using ht⟩

theorem idle_run {k : K} (es : List Entry) (h : ∀ e ∈ es, e.call ≠ .init) : ∀ s, s.inited = false →
    ∀ t, Out.compute t ∈ (run k es s).1.out → Out.compute t ∈ s.out := by
  induction es with
  | nil => intro s _ t ht; exact ht
  | cons e es ih =>
    intro s hs t ht
    simp only [run] at ht
    split at ht
    · rename_i s1 e1
      obtain ⟨a, b, c, h1, h2, h3, h4⟩ := step_parts e1
      rw [if_neg (h e (List.mem_cons_self ..))] at h4
      have ha : a.inited = false ∧ a.out = s.out := by
        unfold count at h1
        repeat' split at h1
        all_goals cases h1
        all_goals exact ⟨hs, rfl⟩
      have hb : b = a := by
        unfold startMpi at h2
        rw [ha.1] at h2
        cases h2; rfl
      have hc := idle_act h3
      have h5 := ih (fun e he => h e (List.mem_cons_of_mem _ he)) s1 (by rw [h4]; show c.inited = false; rw [hc.1, hb, ha.1]) t ht
      rw [h4] at h5
      have h6 := hc.2 t h5
      rw [hb, ha.2] at h6
      exact h6
    · exact ht

/-- C123.  A program that starts MPI with MPI_Init_thread is replayed without any computation: no trace without a
record of MPI_Init makes the replay compute. -/
theorem C123_init_thread_refuted (k : K) (es : List Entry) (h : ∀ e ∈ es, e.call ≠ .init) (t : Nat) :
    Out.compute t ∉ (replay k es).1 := by
  intro ht
  have := idle_run (k := k) es h (St.init k) rfl t
  unfold replay at ht
  split at ht
  · rename_i s e
    rw [e] at this
    simp only [List.mem_append, List.mem_singleton, reduceCtorEq, or_false] at ht
    exact absurd (this ht) (by simp [St.init])
  · rename_i s x e
    rw [e] at this
    exact absurd (this ht) (by simp [St.init])

/-- The trace of a program that computes for a second between MPI_Init_thread and MPI_Finalize. -/
example : replay demoK [⟨.initThread, ⟨0, 0⟩, ⟨0, 0⟩, false⟩, ⟨.finalize, ⟨1, 0⟩, ⟨1, 0⟩, false⟩] =
    ([.init, .finalize], none) ∧
    replay demoK [⟨.init, ⟨0, 0⟩, ⟨0, 0⟩, false⟩, ⟨.finalize, ⟨1, 0⟩, ⟨1, 0⟩, false⟩] =
    ([.init, .compute 1000000000, .finalize], none) := by decide +kernel

/-- C123.  MPI_COMM_SELF is not translated: a program that uses it stops the replay, if libundumpi's constant is not
one of those of this MPI. -/
theorem C123_comm_self_refuted (k : K) (es : List Entry) (h1 : k.commSelf ≠ k.commWorld) (h2 : k.commSelf ≠ mpiCommWorld)
    (h3 : k.commSelf ≠ mpiCommSelf) :
    (replay k (⟨.init, ⟨0, 0⟩, ⟨0, 0⟩, false⟩ :: ⟨.barrier k.commSelf, ⟨0, 0⟩, ⟨0, 0⟩, false⟩ :: es)).2 = some .abort := by
  simp [replay, run, step, count, startMpi, act, endMpi, bind, Except.bind, getComm, tcomm, St.init, h1, h2, h3]

/-- C123.  MPI_Comm_create with the group of the world stops the replay, if the handle of the first group is
not one of the world's or the process's group in this MPI. -/
theorem C123_world_group_refuted (k : K) (es : List Entry) (id : Int) (h1 : k.firstGroup ≠ mpiGroupWorld)
    (h2 : k.firstGroup ≠ mpiGroupSelf) :
    (replay k (⟨.init, ⟨0, 0⟩, ⟨0, 0⟩, false⟩ :: ⟨.pass, ⟨0, 0⟩, ⟨0, 0⟩, false⟩ ::
      ⟨.commCreate k.commWorld k.firstGroup true id, ⟨0, 0⟩, ⟨0, 0⟩, false⟩ :: es)).2 = some .abort := by
  simp [replay, run, step, count, startMpi, act, endMpi, bind, Except.bind, getComm, getGroup, tcomm, St.init, h1, h2,
    mpiCommWorld, mpiCommSelf]

/-- C123.  The group of a communicator other than the world is not known: MPI_Group_incl on it stops the replay
(or takes it for the world's, if it is the first group that the program asked for). -/
theorem C123_comm_group_refuted (k : K) (es : List Entry) (ranks : List Nat) (c g id : Int)
    (h1 : g ≠ k.firstGroup) (h2 : g ≠ mpiGroupWorld) (h3 : g ≠ mpiGroupSelf) :
    (replay k (⟨.init, ⟨0, 0⟩, ⟨0, 0⟩, false⟩ :: ⟨.commDup k.commWorld c, ⟨0, 0⟩, ⟨0, 0⟩, false⟩ ::
      ⟨.pass, ⟨0, 0⟩, ⟨0, 0⟩, false⟩ :: ⟨.groupIncl g ranks id, ⟨0, 0⟩, ⟨0, 0⟩, false⟩ :: es)).2 = some .abort := by
  simp [replay, run, step, count, startMpi, act, endMpi, bind, Except.bind, getComm, getGroup, tcomm, tgroup, St.init,
    h1, h2, h3, mpiCommWorld, mpiCommSelf]

/-- C123.  A wait for a persistent request that was never started, which returns at once in MPI, never ends in
the replay. -/
theorem C123_inactive_refuted (es : List Entry) :
    (replay demoK (⟨.init, ⟨0, 0⟩, ⟨0, 0⟩, false⟩ :: ⟨.sendInit 1 11 1 0 2 40, ⟨0, 0⟩, ⟨0, 0⟩, false⟩ ::
      ⟨.wait 40, ⟨0, 0⟩, ⟨0, 0⟩, false⟩ :: es)).2 = some .hang := by
  simp [replay, run, step, count, startMpi, act, endMpi, bind, Except.bind, getComm, getType, tcomm, treq, St.init,
    doWait, addReq, set, demoK, mpiCommWorld, mpiReqNull]

/-- C123.  A clock that runs back by a nanosecond makes the replay compute for 2^64 - 1 nanoseconds, which are
more than 584 years. -/
theorem C123_clock_refuted (t : Clock) (h : 0 ≤ t.sec) (k : K) :
    (replay k [⟨.init, t, t, false⟩, ⟨.finalize, ⟨t.sec, t.nsec - 1⟩, t, false⟩]).1 =
      [.init, .compute (k.scale (2 ^ 64 - 1)), .finalize] := by
  have hd : deltat ⟨t.sec, t.nsec - 1⟩ t = 2 ^ 64 - 1 := by
    simp only [deltat]
    have : 1000000000 * (t.sec - t.sec) + (t.nsec - 1 - t.nsec) = -1 := by omega
    rw [this]; decide
  simp [replay, run, step, count, startMpi, act, endMpi, bind, Except.bind, St.init, h, hd]

/-- C123.  A trace with performance counters stops the replay at the first call after MPI_Init. -/
theorem C123_perf_refuted (k : K) (c : Rec) (hc : ∀ s, ∃ s', count k c s = .ok s' ∧ s'.inited = s.inited ∧ s'.start = s.start)
    (t a b : Clock) (h : 0 ≤ t.sec) (es : List Entry) :
    (replay k (⟨.init, t, t, true⟩ :: ⟨c, a, b, true⟩ :: es)).2 = some .abort := by
  have h1 : step k ⟨.init, t, t, true⟩ (St.init k) = .ok { St.init k with inited := true, start := t, out := [.init] } := by
    simp [step, count, startMpi, act, endMpi, bind, Except.bind, St.init]
  obtain ⟨s', e, e1, e2⟩ := hc { St.init k with inited := true, start := t, out := [.init] }
  have h2 : step k ⟨c, a, b, true⟩ { St.init k with inited := true, start := t, out := [.init] } = .error .abort := by
    simp [step, e, startMpi, bind, Except.bind, e1, e2, h]
  simp [replay, run, h1, h2]

example (k : K) : ∀ s, ∃ s', count k .finalize s = .ok s' ∧ s'.inited = s.inited ∧ s'.start = s.start :=
  fun s => ⟨s, rfl, rfl, rfl⟩

/-- C123.  A datatype that the replay does not know is taken for one of 8 bytes, whatever its size. -/
theorem C123_unknown_type_refuted (k : K) (t n : Nat) (hk : Sane k) (h1 : k.base t = none) (h2 : k.sizes[t]? = none) :
    (replay k [⟨.init, ⟨0, 0⟩, ⟨0, 0⟩, false⟩, ⟨.send n t 1 0 k.commWorld, ⟨0, 0⟩, ⟨0, 0⟩, false⟩]).1 =
      [.init, .compute (k.scale 0), .post 0 ⟨true, n * 8, 1, 0, 0⟩, .await 0] := by
  have h3 : tpeer k 1 = 1 := tpeer_nat hk 1
  have h4 : ttag k 0 = 0 := ttag_nat hk 0
  simp [replay, run, step, count, startMpi, act, endMpi, bind, Except.bind, St.init, getType, h1, h2, getComm, tcomm,
    h3, h4, mpiSend, mpiCommWorld, mpiProcNull, sendable, awaitOp, post, deltat]

example : Sane demoK ∧ demoK.base 30 = none ∧ demoK.sizes[30]? = none := by
  refine ⟨by unfold Sane; decide, by decide, by decide⟩

end Verif.Dumpi
