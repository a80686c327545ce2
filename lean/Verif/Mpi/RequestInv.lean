import Verif.Mpi.RequestLemmas

/-! Every reachable state satisfies the invariant of `RequestLemmas`. -/
set_option autoImplicit false
namespace SST.Mpi.Req

theorem newPosts_eq {s s' : St} (h : s'.posts = s.posts) : newPosts s s' = [] := by
  unfold newPosts; rw [h]; simp

theorem newPosts_one {s s' : St} {x : Nat × Kind × Args} (h : s'.posts = s.posts ++ [x]) : newPosts s s' = [s.posts.length] := by
  unfold newPosts; rw [h]; simp

theorem newPosts_two {s s' : St} {x y : Nat × Kind × Args} (h : s'.posts = s.posts ++ [x] ++ [y]) :
    newPosts s s' = [s.posts.length, s.posts.length + 1] := by
  unfold newPosts; rw [h]; simp [List.range'_succ]

theorem progress_posts {ms : List Msg} {s s' : St} {o : Nat} {tk : List Comp} {rest : List Msg}
    (h : progress s o ms = some (s', tk, rest)) : s'.posts = s.posts := by
  rw [(progress_spec ms h).1]; exact (comps_posts tk s).1

theorem doIsend_posts (s : St) (a : Args) :
    (s.doIsend a).posts = if a.peer = procNull then s.posts else s.posts ++ [(s.objs.length, .send, a)] := by
  unfold St.doIsend
  simp only
  split
  · rfl
  · rfl

theorem doIrecv_posts (s : St) (a : Args) :
    (s.doIrecv a).posts = if a.peer = procNull then s.posts else s.posts ++ [(s.objs.length, .recv, a)] := by
  unfold St.doIrecv
  simp only
  split
  · rfl
  · rfl

theorem doStart_ok {s s1 : St} {h : Handle} (hs : doStart s h = .ok s1) :
    h ≠ nullHandle ∧ ∃ o ob a, s.map h = some o ∧ s.objs[o]? = some ob ∧ ob.pers = some a ∧
      s1 = if a.peer = procNull then s.upd o (fun ob => { ob with complete := true })
           else (s.upd o (fun ob => { ob with complete := false })).post o ob.kind a := by
  unfold doStart at hs
  split at hs
  · exact absurd hs (by simp)
  · next hn =>
    refine ⟨hn, ?_⟩
    cases hm : s.map h with
    | none => rw [hm] at hs; exact absurd hs (by simp)
    | some o =>
      rw [hm] at hs
      simp only at hs
      cases ho : s.objs[o]? with
      | none => rw [ho] at hs; exact absurd hs (by simp)
      | some ob =>
        rw [ho] at hs
        simp only at hs
        cases hp : ob.pers with
        | none => rw [hp] at hs; exact absurd hs (by simp)
        | some a =>
          rw [hp] at hs
          simp only at hs
          refine ⟨o, ob, a, rfl, ho, hp, ?_⟩
          split at hs
          · next hc => rw [if_pos hc]; exact (Except.ok.inj hs).symm
          · next hc => rw [if_neg hc]; exact (Except.ok.inj hs).symm

theorem doSend_ok {s s1 : St} {a : Args} {ms : List Msg} {tk : List Comp} (hs : doSend s a ms = .ok (s1, tk)) :
    (a.peer = procNull ∧ s1 = s ∧ tk = []) ∨
      (a.peer ≠ procNull ∧ s1 = ((s.construct .send).post s.objs.length .send a).comps tk ∧ s1.isDone s.objs.length = true) := by
  unfold doSend at hs
  split at hs
  · next hn =>
    simp only [Except.ok.injEq, Prod.mk.injEq] at hs
    exact Or.inl ⟨hn, hs.1.symm, hs.2.symm⟩
  · next hn =>
    simp only at hs
    cases hp : progress ((s.construct .send).post s.objs.length .send a) s.objs.length ms with
    | none => rw [hp] at hs; exact absurd hs (by simp)
    | some r =>
      obtain ⟨s2, tk2, rest⟩ := r
      rw [hp] at hs
      simp only [Except.ok.injEq, Prod.mk.injEq] at hs
      obtain ⟨h1, h2⟩ := hs
      subst h1 h2
      exact Or.inr ⟨hn, progress_spec ms hp⟩

theorem doRecv_ok {s s1 : St} {a : Args} {ms : List Msg} {st : Option Status} {tk : List Comp}
    (hs : doRecv s a ms = .ok (s1, st, tk)) :
    s1 = ((s.construct .recv).post s.objs.length .recv a).comps tk ∧ s1.isDone s.objs.length = true ∧ st = s1.stat s.objs.length := by
  unfold doRecv at hs
  simp only at hs
  cases hp : progress ((s.construct .recv).post s.objs.length .recv a) s.objs.length ms with
  | none => rw [hp] at hs; exact absurd hs (by simp)
  | some r =>
    obtain ⟨s2, tk2, rest⟩ := r
    rw [hp] at hs
    simp only [Except.ok.injEq, Prod.mk.injEq] at hs
    obtain ⟨h1, h2, h3⟩ := hs
    subst h1 h2 h3
    obtain ⟨g1, g2⟩ := progress_spec ms hp
    exact ⟨g1, g2, rfl⟩

/-- The four forms of a combined send and receive. -/
theorem doSendrecv_ok {s s1 : St} {a b : Args} {ign : Bool} {ms : List Msg} {st : Option (Option Status)} {tk : List Comp}
    (hs : doSendrecv s a b ign ms = .ok (s1, st, tk)) :
    (a.peer = procNull ∧ b.peer = procNull ∧ s1 = s ∧ tk = [] ∧ ign = false ∧ st = some (some procNullStatus)) ∨
    (a.peer ≠ procNull ∧ b.peer = procNull ∧ doSend s a ms = .ok (s1, tk) ∧ ign = false ∧ st = some (some procNullStatus)) ∨
    (a.peer = procNull ∧ b.peer ≠ procNull ∧ ∃ x, doRecv s b ms = .ok (s1, x, tk) ∧ st = if ign then none else some x) ∨
    (a.peer ≠ procNull ∧ b.peer ≠ procNull ∧ ∃ s2 tk1 tk2, tk = tk1 ++ tk2 ∧
      s2 = (((s.doIsend a).construct .recv).post (s.objs.length + 1) .recv b).comps tk1 ∧ s2.isDone (s.objs.length + 1) = true ∧
      s1 = s2.comps tk2 ∧ s1.isDone s.objs.length = true ∧ st = if ign then none else some (s2.stat (s.objs.length + 1))) := by
  unfold doSendrecv at hs
  split at hs
  · next hn =>
    cases ign with
    | true => exact absurd hs (by simp [writeNull])
    | false =>
      simp only [writeNull, Bool.false_eq_true, if_false, Except.ok.injEq, Prod.mk.injEq] at hs
      exact Or.inl ⟨hn.1, hn.2, hs.1.symm, hs.2.2.symm, rfl, hs.2.1.symm⟩
  · next hn =>
    split at hs
    · next hb =>
      have ha : a.peer ≠ procNull := fun h => hn ⟨h, hb⟩
      cases hd : doSend s a ms with
      | error e => rw [hd] at hs; exact absurd hs (by simp)
      | ok r =>
        obtain ⟨s2, tk2⟩ := r
        rw [hd] at hs
        cases ign with
        | true => exact absurd hs (by simp [writeNull])
        | false =>
          simp only [writeNull, Bool.false_eq_true, if_false, Except.ok.injEq, Prod.mk.injEq] at hs
          obtain ⟨h1, h2, h3⟩ := hs
          subst h1 h3
          exact Or.inr (Or.inl ⟨ha, hb, rfl, rfl, h2.symm⟩)
    · next hb =>
      split at hs
      · next ha =>
        cases hd : doRecv s b ms with
        | error e => rw [hd] at hs; exact absurd hs (by simp)
        | ok r =>
          obtain ⟨s2, x, tk2⟩ := r
          rw [hd] at hs
          simp only [Except.ok.injEq, Prod.mk.injEq] at hs
          obtain ⟨h1, h2, h3⟩ := hs
          subst h1 h3
          exact Or.inr (Or.inr (Or.inl ⟨ha, hb, x, rfl, h2.symm⟩))
      · next ha =>
        simp only at hs
        cases hp : progress (((s.doIsend a).construct .recv).post (s.objs.length + 1) .recv b) (s.objs.length + 1) ms with
        | none => rw [hp] at hs; exact absurd hs (by simp)
        | some r =>
          obtain ⟨s2, tk1, rest⟩ := r
          rw [hp] at hs
          simp only at hs
          cases hq : progress s2 s.objs.length rest with
          | none => rw [hq] at hs; exact absurd hs (by simp)
          | some r =>
            obtain ⟨s3, tk2, rest2⟩ := r
            rw [hq] at hs
            simp only [Except.ok.injEq, Prod.mk.injEq] at hs
            obtain ⟨h1, h2, h3⟩ := hs
            subst h1 h3
            obtain ⟨g1, g2⟩ := progress_spec ms hp
            obtain ⟨f1, f2⟩ := progress_spec rest hq
            exact Or.inr (Or.inr (Or.inr ⟨ha, hb, s2, tk1, tk2, rfl, g1, g2, f1, f2, h2.symm⟩))

theorem finalize_posts (s : St) (h : Handle) (o : Nat) (ign : Bool) : (finalize s h o ign).1.posts = s.posts := by
  unfold finalize
  simp only
  split
  · split
    · rfl
    · rfl
  · rfl

theorem doWait_ok {s s' : St} {h : Handle} {ign : Bool} {ms : List Msg} {r : Res} (hs : doWait s h ign ms = .ok (s', r)) :
    (h = nullHandle ∧ s' = s ∧ r = ⟨.ended nullHandle none, [], []⟩) ∨
    (h ≠ nullHandle ∧ ∃ o s1, s.map h = some o ∧ s1 = s.comps r.took ∧ s1.isDone o = true ∧ s' = (finalize s1 h o ign).1 ∧
      r = ⟨.ended (finalize s1 h o ign).2.1 (finalize s1 h o ign).2.2, [], r.took⟩) := by
  unfold doWait at hs
  split at hs
  · next hn =>
    simp only [Except.ok.injEq, Prod.mk.injEq] at hs
    exact Or.inl ⟨hn, hs.1.symm, hs.2.symm⟩
  · next hn =>
    cases hm : s.map h with
    | none => rw [hm] at hs; exact absurd hs (by simp)
    | some o =>
      rw [hm] at hs
      simp only at hs
      cases hp : progress s o ms with
      | none => rw [hp] at hs; exact absurd hs (by simp)
      | some x =>
        obtain ⟨s1, tk, rest⟩ := x
        rw [hp] at hs
        simp only [Except.ok.injEq, Prod.mk.injEq] at hs
        obtain ⟨h1, h2⟩ := hs
        subst h1 h2
        obtain ⟨g1, g2⟩ := progress_spec ms hp
        exact Or.inr ⟨hn, o, s1, rfl, g1, g2, rfl, rfl⟩

theorem doTest_ok {s s' : St} {h : Handle} {ign : Bool} {ms : List Msg} {r : Res} (hs : doTest s h ign ms = .ok (s', r)) :
    (h = nullHandle ∧ s' = s ∧ r = ⟨.ended nullHandle none, [], []⟩) ∨
    (h ≠ nullHandle ∧ ∃ o, s.map h = some o ∧
      ((s.isDone o = true ∧ s' = s.erase h ∧ r = ⟨.ended nullHandle (if ign then none else some (s.stat o)), [], []⟩) ∨
       (s.isDone o = false ∧ s' = s.comps r.took ∧ r = ⟨.notYet, [], r.took⟩))) := by
  unfold doTest at hs
  split at hs
  · next hn =>
    simp only [Except.ok.injEq, Prod.mk.injEq] at hs
    exact Or.inl ⟨hn, hs.1.symm, hs.2.symm⟩
  · next hn =>
    cases hm : s.map h with
    | none => rw [hm] at hs; exact absurd hs (by simp)
    | some o =>
      rw [hm] at hs
      simp only at hs
      refine Or.inr ⟨hn, o, rfl, ?_⟩
      split at hs
      · next hd =>
        simp only [Except.ok.injEq, Prod.mk.injEq] at hs
        exact Or.inl ⟨hd, hs.1.symm, hs.2.symm⟩
      · next hd =>
        simp only [Except.ok.injEq, Prod.mk.injEq] at hs
        obtain ⟨h1, h2⟩ := hs
        subst h1 h2
        exact Or.inr ⟨by simpa using hd, rfl, rfl⟩

theorem free_ok {s s' : St} {h : Handle} {r : Res} (hs : step s (.free h) = .ok (s', r)) :
    (h = nullHandle ∧ s' = s ∨ s' = s.erase h) ∧ r = ⟨.ended nullHandle none, [], []⟩ := by
  simp only [step] at hs
  split at hs
  · next hn =>
    simp only [Except.ok.injEq, Prod.mk.injEq] at hs
    exact ⟨Or.inl ⟨hn, hs.1.symm⟩, hs.2.symm⟩
  · cases hm : s.map h with
    | none => rw [hm] at hs; exact absurd hs (by simp)
    | some o =>
      rw [hm] at hs
      simp only [Except.ok.injEq, Prod.mk.injEq] at hs
      exact ⟨Or.inr hs.1.symm, hs.2.symm⟩

theorem start_ok {s s' : St} {h : Handle} {ms : List Msg} {r : Res} (hs : step s (.start h ms) = .ok (s', r)) :
    ∃ s1, doStart s h = .ok s1 ∧ s' = s1.comps ms.flatten ∧ r = ⟨.unit, newPosts s s1, ms.flatten⟩ := by
  simp only [step] at hs
  cases hd : doStart s h with
  | error e => rw [hd] at hs; exact absurd hs (by simp)
  | ok s1 =>
    rw [hd] at hs
    simp only [Except.ok.injEq, Prod.mk.injEq] at hs
    exact ⟨s1, rfl, hs.1.symm, hs.2.symm⟩

theorem send_ok {s s' : St} {a : Args} {ms : List Msg} {r : Res} (hs : step s (.send a ms) = .ok (s', r)) :
    doSend s a ms = .ok (s', r.took) ∧ r = ⟨.unit, newPosts s s', r.took⟩ := by
  simp only [step] at hs
  cases hd : doSend s a ms with
  | error e => rw [hd] at hs; exact absurd hs (by simp)
  | ok x =>
    obtain ⟨s1, tk⟩ := x
    rw [hd] at hs
    simp only [Except.ok.injEq, Prod.mk.injEq] at hs
    obtain ⟨h1, h2⟩ := hs
    subst h1 h2
    exact ⟨rfl, rfl⟩

theorem recv_ok {s s' : St} {a : Args} {ign : Bool} {ms : List Msg} {r : Res} (hs : step s (.recv a ign ms) = .ok (s', r)) :
    (a.peer = procNull ∧ s' = s ∧ ign = false ∧ r = ⟨.ended nullHandle (some (some procNullStatus)), [], []⟩) ∨
    (a.peer ≠ procNull ∧ ∃ x, doRecv s a ms = .ok (s', x, r.took) ∧
      r = ⟨.ended nullHandle (if ign then none else some x), newPosts s s', r.took⟩) := by
  simp only [step] at hs
  split at hs
  · next hn =>
    cases ign with
    | true => exact absurd hs (by simp [writeNull])
    | false =>
      simp only [writeNull, Bool.false_eq_true, if_false, Except.ok.injEq, Prod.mk.injEq] at hs
      exact Or.inl ⟨hn, hs.1.symm, rfl, hs.2.symm⟩
  · next hn =>
    cases hd : doRecv s a ms with
    | error e => rw [hd] at hs; exact absurd hs (by simp)
    | ok x =>
      obtain ⟨s1, x, tk⟩ := x
      rw [hd] at hs
      simp only [Except.ok.injEq, Prod.mk.injEq] at hs
      obtain ⟨h1, h2⟩ := hs
      subst h1 h2
      exact Or.inr ⟨hn, x, rfl, rfl⟩

theorem sendrecv_ok {s s' : St} {a b : Args} {ign : Bool} {ms : List Msg} {r : Res} (hs : step s (.sendrecv a b ign ms) = .ok (s', r)) :
    ∃ st, doSendrecv s a b ign ms = .ok (s', st, r.took) ∧ r = ⟨.ended nullHandle st, newPosts s s', r.took⟩ := by
  simp only [step] at hs
  cases hd : doSendrecv s a b ign ms with
  | error e => rw [hd] at hs; exact absurd hs (by simp)
  | ok x =>
    obtain ⟨s1, st, tk⟩ := x
    rw [hd] at hs
    simp only [Except.ok.injEq, Prod.mk.injEq] at hs
    obtain ⟨h1, h2⟩ := hs
    subst h1 h2
    exact ⟨st, rfl, rfl⟩

/-- A call only adds to the operations handed over, and its result lists those it added. -/
theorem step_posts {s s' : St} {op : Op} {r : Res} (hs : step s op = .ok (s', r)) :
    (∃ l, s'.posts = s.posts ++ l) ∧ r.posts = newPosts s s' := by
  have hnp : ∀ {s s1 s2 : St}, s2.posts = s1.posts → newPosts s s1 = newPosts s s2 := by
    intro s s1 s2 h; unfold newPosts; rw [h]
  have hself : ∀ {s s2 : St}, s2.posts = s.posts → (∃ l, s2.posts = s.posts ++ l) ∧ ([] : List Nat) = newPosts s s2 := by
    intro s s2 h
    exact ⟨⟨[], by rw [h, List.append_nil]⟩, (newPosts_eq h).symm⟩
  cases op with
  | isend a ms =>
    simp only [step, Except.ok.injEq, Prod.mk.injEq] at hs
    obtain ⟨h1, h2⟩ := hs
    subst h1 h2
    have hp := (comps_posts ms.flatten ((s.doIsend a).add s.objs.length)).1
    refine ⟨?_, hnp hp⟩
    rw [hp]
    show ∃ l, (s.doIsend a).posts = _
    rw [doIsend_posts]
    split
    · exact ⟨[], by simp⟩
    · exact ⟨_, rfl⟩
  | irecv a ms =>
    simp only [step, Except.ok.injEq, Prod.mk.injEq] at hs
    obtain ⟨h1, h2⟩ := hs
    subst h1 h2
    have hp := (comps_posts ms.flatten (s.doIrecv a)).1
    refine ⟨?_, hnp hp⟩
    rw [hp, doIrecv_posts]
    split
    · exact ⟨[], by simp⟩
    · exact ⟨_, rfl⟩
  | sendInit a =>
    simp only [step, Except.ok.injEq, Prod.mk.injEq] at hs
    obtain ⟨h1, h2⟩ := hs
    subst h1 h2
    exact hself rfl
  | recvInit a =>
    simp only [step, Except.ok.injEq, Prod.mk.injEq] at hs
    obtain ⟨h1, h2⟩ := hs
    subst h1 h2
    exact hself rfl
  | start h ms =>
    obtain ⟨s1, h1, h2, h3⟩ := start_ok hs
    subst h2
    rw [h3]
    have hp := (comps_posts ms.flatten s1).1
    refine ⟨?_, hnp hp⟩
    rw [hp]
    obtain ⟨-, o, ob, a, -, -, -, h4⟩ := doStart_ok h1
    rw [h4]
    split
    · exact ⟨[], by simp [St.upd]⟩
    · exact ⟨_, rfl⟩
  | free h =>
    obtain ⟨h1, h2⟩ := free_ok hs
    rw [h2]
    rcases h1 with ⟨-, h1⟩ | h1
    · rw [h1]; exact hself rfl
    · rw [h1]; exact hself rfl
  | wait h ign ms =>
    rcases doWait_ok hs with ⟨-, h1, h2⟩ | ⟨-, o, s1, -, h1, -, h2, h3⟩
    · rw [h1, h2]; exact hself rfl
    · rw [h3]
      apply hself
      rw [h2, finalize_posts, h1]
      exact (comps_posts _ s).1
  | test h ign ms =>
    rcases doTest_ok hs with ⟨-, h1, h2⟩ | ⟨-, o, -, ⟨-, h1, h2⟩ | ⟨-, h1, h2⟩⟩
    · rw [h1, h2]; exact hself rfl
    · rw [h1, h2]; exact hself rfl
    · rw [h2]
      apply hself
      rw [h1]; exact (comps_posts _ s).1
  | send a ms =>
    obtain ⟨h1, h2⟩ := send_ok hs
    rw [h2]
    refine ⟨?_, rfl⟩
    rcases doSend_ok h1 with ⟨-, h3, -⟩ | ⟨-, h3, -⟩
    · rw [h3]; exact ⟨[], by simp⟩
    · rw [h3, (comps_posts _ _).1]; exact ⟨_, rfl⟩
  | recv a ign ms =>
    rcases recv_ok hs with ⟨-, h1, -, h2⟩ | ⟨-, x, h1, h2⟩
    · rw [h1, h2]; exact hself rfl
    · rw [h2]
      refine ⟨?_, rfl⟩
      rw [(doRecv_ok h1).1, (comps_posts _ _).1]; exact ⟨_, rfl⟩
  | sendrecv a b ign ms =>
    obtain ⟨st, h1, h2⟩ := sendrecv_ok hs
    rw [h2]
    refine ⟨?_, rfl⟩
    rcases doSendrecv_ok h1 with ⟨-, -, h3, -⟩ | ⟨-, -, h3, -⟩ | ⟨-, -, x, h3, -⟩ | ⟨h0, -, s2, tk1, tk2, -, h3, -, h4, -⟩
    · rw [h3]; exact ⟨[], by simp⟩
    · rcases doSend_ok h3 with ⟨-, h3, -⟩ | ⟨-, h3, -⟩
      · rw [h3]; exact ⟨[], by simp⟩
      · rw [h3, (comps_posts _ _).1]; exact ⟨_, rfl⟩
    · rw [(doRecv_ok h3).1, (comps_posts _ _).1]; exact ⟨_, rfl⟩
    · rw [h4, (comps_posts _ _).1, h3, (comps_posts _ _).1]
      refine ⟨[(s.objs.length, .send, a), (s.objs.length + 1, .recv, b)], ?_⟩
      simp only [St.post, St.construct]
      rw [doIsend_posts, if_neg h0]; simp

theorem range_new {m n : Nat} (h : m ≤ n) : List.range m ++ List.range' m (n - m) = List.range n := by
  rw [List.range_eq_range', List.range_eq_range']
  have := List.range'_append (s := 0) (m := m) (n := n - m) (step := 1)
  rw [Nat.one_mul, Nat.zero_add] at this
  rw [this]
  congr 1
  omega

theorem construct_last (s : St) (k : Kind) : (s.construct k).objs[s.objs.length]? = some ⟨k, false, none, none⟩ := by
  simp [St.construct]

/-- The whole invariant. -/
structure Ok (tr : Trace) (s : St) : Prop where
  inv : Inv (handlesOf tr).length (Held tr) (lastAct tr) (doneIn tr) s
  posted : postedIn tr = List.range s.posts.length
  done : ∀ c ∈ doneIn tr, c.1 < s.posts.length
  act : ∀ h, lastAct tr h ≠ none → ∃ m, m < (handlesOf tr).length ∧ h = BitVec.ofNat 32 m

/-- A call that gives no request. -/
theorem handles_same {tr : Trace} {e : Op × Res} (h : ∀ x, e.2.out ≠ .handle x) : handlesOf (tr ++ [e]) = handlesOf tr := by
  unfold handlesOf
  rw [List.filterMap_append]
  rw [List.filterMap_cons]
  cases ho : e.2.out with
  | handle x => exact absurd ho (h x)
  | unit => simp
  | ended a b => simp
  | notYet => simp

theorem handles_new {tr : Trace} {e : Op × Res} {x : Handle} (h : e.2.out = .handle x) :
    handlesOf (tr ++ [e]) = handlesOf tr ++ [x] := by
  unfold handlesOf
  rw [List.filterMap_append, List.filterMap_cons, h]
  rfl

/-- The invariant after a call that creates a request. -/
theorem created {tr : Trace} {s s' : St} {e : Op × Res} {k : Kind} {a : Args} {p : Bool} {x : Option (Option Nat)}
    (hok : Ok tr s) (hout : e.2.out = .handle (BitVec.ofNat 32 s.counter))
    (hI : Inv ((handlesOf tr).length + 1)
      (fun h k' a' p' => (h = BitVec.ofNat 32 (handlesOf tr).length ∧ k' = k ∧ a' = a ∧ p' = p) ∨ Held tr h k' a' p')
      (fun h => if h = BitVec.ofNat 32 (handlesOf tr).length then x else lastAct tr h) (doneIn tr ++ e.2.took) s')
    (hc : ∀ h k' a' p', Creates e h k' a' p' → k' = k ∧ a' = a ∧ p' = p)
    (hx : activates (BitVec.ofNat 32 s.counter) e = x) (hact : ∀ h, h ≠ BitVec.ofNat 32 s.counter → activates h e = none) :
    Inv (handlesOf (tr ++ [e])).length (Held (tr ++ [e])) (lastAct (tr ++ [e])) (doneIn (tr ++ [e])) s' ∧
    ∀ h, lastAct (tr ++ [e]) h ≠ none → ∃ m, m < (handlesOf (tr ++ [e])).length ∧ h = BitVec.ofNat 32 m := by
  have hcnt := hok.inv.cnt
  rw [hcnt] at hout hx hact
  have hsm := hI.small
  have hold : ∀ h, (∃ m, m < (handlesOf tr).length ∧ h = BitVec.ofNat 32 m) → h ≠ BitVec.ofNat 32 (handlesOf tr).length := by
    rintro h ⟨m, h1, h2⟩ h3
    rw [h2] at h3
    have := ofNat_inj (by omega) (by omega) h3
    omega
  constructor
  · rw [handles_new hout, List.length_append, List.length_singleton, done_snoc]
    apply hI.mono
    · intro h k' a' p' hh
      rcases held_snoc.1 hh with h1 | ⟨h1, -⟩
      · have h2 := h1.1
        rw [hout] at h2
        exact Or.inl ⟨(Out.handle.inj h2).symm, hc h k' a' p' h1⟩
      · exact Or.inr h1
    · intro h k' a' p' hh
      rw [last_snoc]
      by_cases he : h = BitVec.ofNat 32 (handlesOf tr).length
      · rw [if_pos he, he, hx]
        cases x with
        | some y => rfl
        | none =>
          simp only
          cases hl : lastAct tr (BitVec.ofNat 32 (handlesOf tr).length) with
          | none => rfl
          | some y => exact absurd rfl (hold _ (hok.act _ (by rw [hl]; simp)))
      · rw [if_neg he, hact h he]
  · intro h hh
    rw [handles_new hout, List.length_append, List.length_singleton]
    rw [last_snoc] at hh
    by_cases he : h = BitVec.ofNat 32 (handlesOf tr).length
    · exact ⟨_, Nat.lt_succ_self _, he⟩
    · rw [hact h he] at hh
      obtain ⟨m, h1, h2⟩ := hok.act h hh
      exact ⟨m, by omega, h2⟩

/-- The invariant after a call that creates no request and starts none. -/
theorem other {tr : Trace} {s s' : St} {e : Op × Res} {held : Handle → Kind → Args → Bool → Prop}
    (hok : Ok tr s) (hout : ∀ x, e.2.out ≠ .handle x) (hact : ∀ h, activates h e = none)
    (hI : Inv (handlesOf tr).length held (lastAct tr) (doneIn tr ++ e.2.took) s')
    (hh : ∀ h k a p, Held tr h k a p → ¬ Releases e h → held h k a p) :
    Inv (handlesOf (tr ++ [e])).length (Held (tr ++ [e])) (lastAct (tr ++ [e])) (doneIn (tr ++ [e])) s' ∧
    ∀ h, lastAct (tr ++ [e]) h ≠ none → ∃ m, m < (handlesOf (tr ++ [e])).length ∧ h = BitVec.ofNat 32 m := by
  have hlast : ∀ h, lastAct (tr ++ [e]) h = lastAct tr h := by
    intro h; rw [last_snoc, hact h]
  rw [handles_same hout]
  constructor
  · rw [done_snoc]
    apply hI.mono
    · intro h k a p h1
      rcases held_snoc.1 h1 with h2 | ⟨h2, h3⟩
      · exact absurd h2.1 (hout h)
      · exact hh h k a p h2 h3
    · intro h k a p _
      exact hlast h
  · intro h h1
    rw [hlast] at h1
    exact hok.act h h1

theorem held_ne_null {tr : Trace} {s : St} (hok : Ok tr s) {h : Handle} {k : Kind} {a : Args} {p : Bool}
    (hh : Held tr h k a p) : h ≠ nullHandle := by
  obtain ⟨m, h1, h2⟩ := hok.inv.heldH h k a p hh
  rw [h2]
  exact ofNat_ne_null (Nat.lt_of_lt_of_le h1 hok.inv.small)

theorem Ok.step {tr : Trace} {s s' : St} {op : Op} {r : Res} (hok : Ok tr s) (hs : step s op = .ok (s', r))
    (hg : Good (tr ++ [(op, r)])) : Ok (tr ++ [(op, r)]) s' := by
  obtain ⟨⟨l, hpl⟩, hpr⟩ := step_posts hs
  have hposted : postedIn (tr ++ [(op, r)]) = List.range s'.posts.length := by
    rw [posted_snoc, hok.posted]
    simp only
    rw [hpr]
    exact range_new (by rw [hpl]; simp)
  have htook : ∀ c ∈ r.took, c.1 < s'.posts.length := by
    intro c hc
    have := hg.2.1.2 tr (op, r) [] rfl c hc
    rw [hposted] at this
    exact List.mem_range.1 this
  have hnd : ((doneIn tr ++ r.took).map (·.1)).Nodup := by
    have := hg.2.1.1
    rw [done_snoc] at this
    exact this
  have hdone : ∀ c ∈ doneIn (tr ++ [(op, r)]), c.1 < s'.posts.length := by
    intro c hc
    rw [done_snoc] at hc
    rcases List.mem_append.1 hc with hc | hc
    · have := hok.done c hc
      rw [hpl, List.length_append]; omega
    · exact htook c hc
  have hcnt := hok.inv.cnt
  have hfew := hg.1
  unfold Few at hfew
  have hi := hok.inv
  -- completions after the operations have been handed over
  have hco : ∀ {n : Nat} {held : Handle → Kind → Args → Bool → Prop} {last : Handle → Option (Option Nat)} {s1 : St},
      Inv n held last (doneIn tr) s1 → s'.posts = s1.posts → Inv n held last (doneIn tr ++ r.took) (s1.comps r.took) := by
    intro n held last s1 h1 h2
    exact h1.comps r.took (by rw [← h2]; exact htook) hnd
  suffices h : Inv (handlesOf (tr ++ [(op, r)])).length (Held (tr ++ [(op, r)])) (lastAct (tr ++ [(op, r)]))
      (doneIn (tr ++ [(op, r)])) s' ∧
      ∀ h, lastAct (tr ++ [(op, r)]) h ≠ none → ∃ m, m < (handlesOf (tr ++ [(op, r)])).length ∧ h = BitVec.ofNat 32 m from
    ⟨h.1, hposted, hdone, h.2⟩
  have nodone : s.posts.length ∉ (doneIn tr).map (·.1) := by
    intro hx
    obtain ⟨c, hc1, hc2⟩ := List.mem_map.1 hx
    have := hok.done c hc1
    omega
  have noPosts : ∀ (i : Nat) (e : Nat × Kind × Args), s.posts[i]? = some e → e.1 ≠ s.objs.length := by
    intro i e he
    have := hi.postDom i e he
    omega
  -- the object of an operation just posted
  have actNew : ∀ (k : Kind) (a : Args) (p : Bool) (ob : Obj), a.peer ≠ procNull → ob.complete = false →
      ActOk k a p s.objs.length ob (some (some s.posts.length)) (doneIn tr) (s.posts ++ [(s.objs.length, k, a)]) := by
    intro k a p ob ha hc
    refine ⟨ha, by simp, ?_, ?_, ?_⟩
    · intro j e hj he hji
      exfalso
      by_cases hlt : j < s.posts.length
      · rw [List.getElem?_append_left hlt] at hj
        exact noPosts j e hj he
      · rw [List.getElem?_append_right (by omega)] at hj
        have : j - s.posts.length < 1 := by
          have := (List.getElem?_eq_some_iff.1 hj).1
          simpa using this
        omega
    · constructor
      · intro h; rw [hc] at h; exact absurd h (by simp)
      · intro h; exact absurd h nodone
    · intro st hst
      exact absurd (List.mem_map_of_mem (f := (·.1)) hst) nodone
  cases op with
  | isend a ms =>
    simp only [Req.step, Except.ok.injEq, Prod.mk.injEq] at hs
    obtain ⟨h1, h2⟩ := hs
    have hout : r.out = .handle (BitVec.ofNat 32 s.counter) := by rw [← h2]
    have htk : r.took = ms.flatten := by rw [← h2]
    have hps : r.posts = newPosts s ((s.doIsend a).add s.objs.length) := by rw [← h2]
    rw [handles_new (e := (Op.isend a ms, r)) hout, List.length_append, List.length_singleton] at hfew
    have hc : ∀ h k' a' p', Creates (Op.isend a ms, r) h k' a' p' → k' = .send ∧ a' = a ∧ p' = false := by
      rintro h k' a' p' ⟨-, ⟨ms', he, hk, hp⟩ | ⟨ms', he, -, -⟩ | ⟨he, -, -⟩ | ⟨he, -, -⟩⟩
      · simp only [Op.isend.injEq] at he
        exact ⟨hk, he.1.symm, hp⟩
      · exact absurd he (by simp)
      · exact absurd he (by simp)
      · exact absurd he (by simp)
    have hx : activates (BitVec.ofNat 32 s.counter) (Op.isend a ms, r) = some r.posts.head? := by
      simp only [activates]; rw [if_pos hout]
    have hact : ∀ h, h ≠ BitVec.ofNat 32 s.counter → activates h (Op.isend a ms, r) = none := by
      intro h hh
      simp only [activates]
      rw [if_neg]
      rw [hout]
      intro he
      exact hh (Out.handle.inj he).symm
    have hp1 : s'.posts = ((s.doIsend a).add s.objs.length).posts := by
      rw [← h1]; exact (comps_posts _ _).1
    refine created (k := .send) (a := a) (p := false) hok hout ?_ hc hx hact
    rw [← h1, ← htk]
    apply hco _ hp1
    rw [hps]
    unfold St.doIsend
    simp only
    by_cases hn : a.peer = procNull
    · rw [if_pos hn]
      rw [newPosts_eq (s := s) (s' := ((s.construct .send).upd s.objs.length (fun ob => { ob with complete := true })).add s.objs.length) rfl]
      refine ((hi.construct .send).upd _ (hi.fresh)).add (by omega) (hi.fresh)
        (ob := ⟨.send, true, none, none⟩) ?_ rfl rfl ⟨hn, rfl, noPosts, fun _ h => absurd h (by decide)⟩
      simp only [St.upd]
      rw [List.getElem?_modify_eq, construct_last]; rfl
    · rw [if_neg hn]
      rw [newPosts_one (s := s) (s' := ((s.construct .send).post s.objs.length .send a).add s.objs.length) rfl]
      refine ((hi.construct .send).post _ _ (by simp [St.construct]) (hi.fresh)).add (by omega) (hi.fresh)
        (ob := ⟨.send, false, none, none⟩) (construct_last s _) rfl rfl (actNew _ _ _ _ hn rfl)
  | irecv a ms =>
    simp only [Req.step, Except.ok.injEq, Prod.mk.injEq] at hs
    obtain ⟨h1, h2⟩ := hs
    have hout : r.out = .handle (BitVec.ofNat 32 s.counter) := by rw [← h2]
    have htk : r.took = ms.flatten := by rw [← h2]
    have hps : r.posts = newPosts s (s.doIrecv a) := by rw [← h2]
    rw [handles_new (e := (Op.irecv a ms, r)) hout, List.length_append, List.length_singleton] at hfew
    have hc : ∀ h k' a' p', Creates (Op.irecv a ms, r) h k' a' p' → k' = .recv ∧ a' = a ∧ p' = false := by
      rintro h k' a' p' ⟨-, ⟨ms', he, -, -⟩ | ⟨ms', he, hk, hp⟩ | ⟨he, -, -⟩ | ⟨he, -, -⟩⟩
      · exact absurd he (by simp)
      · simp only [Op.irecv.injEq] at he
        exact ⟨hk, he.1.symm, hp⟩
      · exact absurd he (by simp)
      · exact absurd he (by simp)
    have hx : activates (BitVec.ofNat 32 s.counter) (Op.irecv a ms, r) = some r.posts.head? := by
      simp only [activates]; rw [if_pos hout]
    have hact : ∀ h, h ≠ BitVec.ofNat 32 s.counter → activates h (Op.irecv a ms, r) = none := by
      intro h hh
      simp only [activates]
      rw [if_neg]
      rw [hout]
      intro he
      exact hh (Out.handle.inj he).symm
    have hp1 : s'.posts = (s.doIrecv a).posts := by
      rw [← h1]; exact (comps_posts _ _).1
    refine created (k := .recv) (a := a) (p := false) hok hout ?_ hc hx hact
    rw [← h1, ← htk]
    apply hco _ hp1
    rw [hps]
    unfold St.doIrecv
    simp only
    by_cases hn : a.peer = procNull
    · rw [if_pos hn]
      rw [newPosts_eq (s := s) (s' := ((s.construct .recv).add s.objs.length).upd s.objs.length (fun ob => { ob with complete := true, stat := some procNullStatus })) rfl]
      refine ((hi.construct .recv).upd _ (hi.fresh)).add (by omega) (hi.fresh)
        (ob := ⟨.recv, true, some procNullStatus, none⟩) ?_ rfl rfl ⟨hn, rfl, noPosts, fun _ _ => rfl⟩
      simp only [St.upd]
      rw [List.getElem?_modify_eq, construct_last]; rfl
    · rw [if_neg hn]
      rw [newPosts_one (s := s) (s' := ((s.construct .recv).add s.objs.length).post s.objs.length .recv a) rfl]
      refine ((hi.construct .recv).post _ _ (by simp [St.construct]) (hi.fresh)).add (by omega) (hi.fresh)
        (ob := ⟨.recv, false, none, none⟩) (construct_last s _) rfl rfl (actNew _ _ _ _ hn rfl)
  | sendInit a =>
    simp only [Req.step, Except.ok.injEq, Prod.mk.injEq] at hs
    obtain ⟨h1, h2⟩ := hs
    have hout : r.out = .handle (BitVec.ofNat 32 s.counter) := by rw [← h2]
    have htk : r.took = [] := by rw [← h2]
    rw [handles_new (e := (Op.sendInit a, r)) hout, List.length_append, List.length_singleton] at hfew
    refine created (k := .send) (a := a) (p := true) (x := none) hok hout ?_ ?_ rfl (fun _ _ => rfl)
    · simp only
      rw [htk, List.append_nil, ← h1]
      refine ((hi.construct .send).upd _ (hi.fresh)).add (by omega) (hi.fresh)
        (ob := ⟨.send, false, none, some a⟩) ?_ rfl rfl ⟨rfl, rfl, noPosts⟩
      simp only [St.upd]
      rw [List.getElem?_modify_eq, construct_last]; rfl
    · rintro h k' a' p' ⟨-, ⟨ms', he, -, -⟩ | ⟨ms', he, hk, hp⟩ | ⟨he, hk, hp⟩ | ⟨he, -, -⟩⟩
      · exact absurd he (by simp)
      · exact absurd he (by simp)
      · simp only [Op.sendInit.injEq] at he
        exact ⟨hk, he.symm, hp⟩
      · exact absurd he (by simp)
  | recvInit a =>
    simp only [Req.step, Except.ok.injEq, Prod.mk.injEq] at hs
    obtain ⟨h1, h2⟩ := hs
    have hout : r.out = .handle (BitVec.ofNat 32 s.counter) := by rw [← h2]
    have htk : r.took = [] := by rw [← h2]
    rw [handles_new (e := (Op.recvInit a, r)) hout, List.length_append, List.length_singleton] at hfew
    refine created (k := .recv) (a := a) (p := true) (x := none) hok hout ?_ ?_ rfl (fun _ _ => rfl)
    · simp only
      rw [htk, List.append_nil, ← h1]
      refine ((hi.construct .recv).upd _ (hi.fresh)).add (by omega) (hi.fresh)
        (ob := ⟨.recv, false, none, some a⟩) ?_ rfl rfl ⟨rfl, rfl, noPosts⟩
      simp only [St.upd]
      rw [List.getElem?_modify_eq, construct_last]; rfl
    · rintro h k' a' p' ⟨-, ⟨ms', he, -, -⟩ | ⟨ms', he, hk, hp⟩ | ⟨he, hk, hp⟩ | ⟨he, hk, hp⟩⟩
      · exact absurd he (by simp)
      · exact absurd he (by simp)
      · exact absurd he (by simp)
      · simp only [Op.recvInit.injEq] at he
        exact ⟨hk, he.symm, hp⟩
  | start h0 ms =>
    obtain ⟨s1, h1, h2, h3⟩ := start_ok hs
    obtain ⟨hnn, o, ob, a, g1, g2, g3, g4⟩ := doStart_ok h1
    have htk : r.took = ms.flatten := by rw [h3]
    have hps : r.posts = newPosts s s1 := by rw [h3]
    have hout : ∀ x, r.out ≠ .handle x := by intro x; rw [h3]; simp
    have hst := hi.start g1 g2 g3 (fun i hl => hg.2.2 tr h0 ms r [] rfl i hl) hok.done
    rw [← g4] at hst
    have hst := hco hst (by rw [h2]; exact (comps_posts _ _).1)
    rw [htk, ← h2] at hst
    have hhead : r.posts.head? = if a.peer = procNull then none else some s.posts.length := by
      rw [hps, g4]
      split
      · rw [newPosts_eq (s := s) (s' := s.upd o (fun ob => { ob with complete := true })) rfl]; rfl
      · rw [newPosts_one (s := s) rfl]; rfl
    have hlast : ∀ h, lastAct (tr ++ [(Op.start h0 ms, r)]) h =
        if h = h0 then some (if a.peer = procNull then none else some s.posts.length) else lastAct tr h := by
      intro h
      rw [last_snoc]
      simp only [activates]
      by_cases he : h0 = h
      · rw [if_pos he, if_pos he.symm, hhead]
      · rw [if_neg he, if_neg (fun h => he h.symm)]
    rw [handles_same (e := (Op.start h0 ms, r)) hout]
    constructor
    · rw [done_snoc]
      simp only
      rw [htk]
      apply hst.mono
      · intro h k a p hh
        rcases held_snoc.1 hh with h5 | ⟨h5, -⟩
        · exact absurd h5.1 (hout h)
        · exact h5
      · intro h k a p _
        exact hlast h
    · intro h hh
      rw [hlast] at hh
      by_cases he : h = h0
      · rw [he]; exact hi.mapH h0 o g1
      · rw [if_neg he] at hh
        exact hok.act h hh
  | free h0 =>
    obtain ⟨h1, h2⟩ := free_ok hs
    have hrel : Releases (Op.free h0, r) h0 := ⟨⟨none, by rw [h2]⟩, Or.inl rfl⟩
    refine other (held := fun h k a p => Held tr h k a p ∧ h ≠ h0) hok (by intro x; rw [h2]; simp) (fun _ => rfl) ?_ ?_
    · rw [h2]
      simp only [List.append_nil]
      rcases h1 with ⟨h3, h1⟩ | h1
      · rw [h1]; exact hi.mono (fun h k a p hh => hh.1) (fun _ _ _ _ _ => rfl)
      · rw [h1]; exact hi.erase h0
    · intro h k a p hh hn
      refine ⟨hh, ?_⟩
      intro he
      rw [he] at hn
      exact hn hrel
  | wait h0 ign ms =>
    rcases doWait_ok hs with ⟨h0n, h1, h2⟩ | ⟨hnn, o, s1, hm, h1, hd, h2, h3⟩
    · refine other (held := Held tr) hok (by intro x; rw [h2]; simp) (fun _ => rfl) ?_ (fun _ _ _ _ h _ => h)
      rw [h2, h1]
      simp only [List.append_nil]
      exact hi
    · have hI1 := hco hi (by rw [h2, finalize_posts, h1]; exact (comps_posts _ _).1)
      rw [← h1] at hI1
      have hout : ∀ x, r.out ≠ .handle x := by intro x; rw [h3]; simp
      unfold finalize at h2 h3
      simp only at h2 h3
      cases ho : s1.objs[o]? with
      | none =>
        rw [ho] at h2 h3
        simp only at h2 h3
        have hrel : Releases (Op.wait h0 ign ms, r) h0 := ⟨⟨_, by rw [h3]⟩, Or.inr (Or.inl ⟨_, _, rfl⟩)⟩
        refine other (held := fun h k a p => Held tr h k a p ∧ h ≠ h0) hok hout (fun _ => rfl) ?_ ?_
        · rw [h2]; exact hI1.erase h0
        · intro h k a p hh hn
          refine ⟨hh, ?_⟩
          intro he
          rw [he] at hn
          exact hn hrel
      | some ob =>
        rw [ho] at h2 h3
        simp only at h2 h3
        by_cases hp : ob.pers.isSome = true
        · rw [if_pos hp] at h2
          simp only at h2
          refine other (held := Held tr) hok hout (fun _ => rfl) ?_ (fun _ _ _ _ h _ => h)
          rw [h2]; exact hI1
        · rw [if_neg hp] at h2 h3
          simp only at h2 h3
          have hrel : Releases (Op.wait h0 ign ms, r) h0 := ⟨⟨_, by rw [h3]⟩, Or.inr (Or.inl ⟨_, _, rfl⟩)⟩
          refine other (held := fun h k a p => Held tr h k a p ∧ h ≠ h0) hok hout (fun _ => rfl) ?_ ?_
          · rw [h2]; exact hI1.erase h0
          · intro h k a p hh hn
            refine ⟨hh, ?_⟩
            intro he
            rw [he] at hn
            exact hn hrel
  | test h0 ign ms =>
    rcases doTest_ok hs with ⟨h0n, h1, h2⟩ | ⟨hnn, o, hm, ⟨hd, h1, h2⟩ | ⟨hd, h1, h2⟩⟩
    · refine other (held := Held tr) hok (by intro x; rw [h2]; simp) (fun _ => rfl) ?_ (fun _ _ _ _ h _ => h)
      rw [h2, h1]
      simp only [List.append_nil]
      exact hi
    · have hrel : Releases (Op.test h0 ign ms, r) h0 := ⟨⟨_, by rw [h2]⟩, Or.inr (Or.inr ⟨_, _, rfl⟩)⟩
      refine other (held := fun h k a p => Held tr h k a p ∧ h ≠ h0) hok (by intro x; rw [h2]; simp) (fun _ => rfl) ?_ ?_
      · rw [h2, h1]
        simp only [List.append_nil]
        exact hi.erase h0
      · intro h k a p hh hn
        refine ⟨hh, ?_⟩
        intro he
        rw [he] at hn
        exact hn hrel
    · refine other (held := Held tr) hok (by intro x; rw [h2]; simp) (fun _ => rfl) ?_ (fun _ _ _ _ h _ => h)
      have := hco hi (by rw [h1]; exact (comps_posts _ _).1)
      rw [← h1] at this
      exact this
  | send a ms =>
    obtain ⟨h1, h2⟩ := send_ok hs
    refine other (held := Held tr) hok (by intro x; rw [h2]; simp) (fun _ => rfl) ?_ (fun _ _ _ _ h _ => h)
    simp only
    rcases doSend_ok h1 with ⟨-, h3, h4⟩ | ⟨-, h3, -⟩
    · rw [h3, h4, List.append_nil]; exact hi
    · have := hco ((hi.construct .send).post .send a (by simp [St.construct]) hi.fresh) (by rw [h3]; exact (comps_posts _ _).1)
      rw [← h3] at this
      exact this
  | recv a ign ms =>
    rcases recv_ok hs with ⟨-, h1, -, h2⟩ | ⟨-, x, h1, h2⟩
    · refine other (held := Held tr) hok (by intro x; rw [h2]; simp) (fun _ => rfl) ?_ (fun _ _ _ _ h _ => h)
      rw [h2, h1]
      simp only [List.append_nil]
      exact hi
    · refine other (held := Held tr) hok (by intro x; rw [h2]; simp) (fun _ => rfl) ?_ (fun _ _ _ _ h _ => h)
      have h3 := (doRecv_ok h1).1
      have := hco ((hi.construct .recv).post .recv a (by simp [St.construct]) hi.fresh) (by rw [h3]; exact (comps_posts _ _).1)
      rw [← h3] at this
      exact this
  | sendrecv a b ign ms =>
    obtain ⟨st, h1, h2⟩ := sendrecv_ok hs
    refine other (held := Held tr) hok (by intro x; rw [h2]; simp) (fun _ => rfl) ?_ (fun _ _ _ _ h _ => h)
    simp only
    rcases doSendrecv_ok h1 with ⟨-, -, h3, h4, -⟩ | ⟨-, -, h3, -⟩ | ⟨-, -, x, h3, -⟩ | ⟨h0, -, s2, tk1, tk2, h5, h3, -, h4, -⟩
    · rw [h3, h4, List.append_nil]; exact hi
    · rcases doSend_ok h3 with ⟨-, h3, h4⟩ | ⟨-, h3, -⟩
      · rw [h3, h4, List.append_nil]; exact hi
      · have := hco ((hi.construct .send).post .send a (by simp [St.construct]) hi.fresh) (by rw [h3]; exact (comps_posts _ _).1)
        rw [← h3] at this
        exact this
    · have h3 := (doRecv_ok h3).1
      have := hco ((hi.construct .recv).post .recv b (by simp [St.construct]) hi.fresh) (by rw [h3]; exact (comps_posts _ _).1)
      rw [← h3] at this
      exact this
    · have hse : s.doIsend a = (s.construct .send).post s.objs.length .send a := by
        unfold St.doIsend; simp only; rw [if_neg h0]
      have h6 : s' = (((s.doIsend a).construct .recv).post (s.objs.length + 1) .recv b).comps r.took := by
        rw [h4, h3, h5]
        simp only [St.comps, List.foldl_append]
      have hI1 := (hi.construct .send).post .send a (o := s.objs.length) (by simp [St.construct]) hi.fresh
      have hI2 := hI1.construct .recv
      have hI3 := hI2.post .recv b (o := s.objs.length + 1) (by simp [St.construct, St.post])
        (by intro h hx
            have := hi.dom h _ hx
            omega)
      rw [← hse] at hI3
      have := hco hI3 (by rw [h6]; exact (comps_posts _ _).1)
      rw [← h6] at this
      exact this

theorem Ok.init : Ok [] St.init where
  inv := {
    cnt := rfl
    small := by simp [handlesOf]
    heldH := fun h k a p hh => absurd hh held_nil
    mapH := fun h o hh => by simp [St.init] at hh
    inj := fun h h' o hh => by simp [St.init] at hh
    dom := fun h o hh => by simp [St.init] at hh
    postDom := fun i e he => by simp [St.init] at he
    obj := fun h k a p hh => absurd hh held_nil }
  posted := rfl
  done := fun c hc => by simp [doneIn] at hc
  act := fun h hh => absurd rfl hh

theorem reach_ok {tr : Trace} {s : St} (hr : Reach tr s) (hg : Good tr) : Ok tr s := by
  induction hr with
  | init => exact Ok.init
  | step _ hs ih => exact (ih hg.prefix).step hs hg

end SST.Mpi.Req
