import Verif.Mpi.TestProgress
import Verif.Mpi.WaitProps

/-!
Property C22 for the test calls with a test delay: what they report has completed by the time
the call returns, and what had completed when the call began is reported.
-/
set_option autoImplicit false
namespace SST.Mpi

theorem Done.mono {t : Tab} {env : List (List Nat)} {k k' id : Nat} {q : Rq} (h : Done t env k id q) (hk : k ≤ k') :
    Done t env k' id q := by
  refine ⟨h.1, ?_⟩
  rcases h.2 with h2 | ⟨c, h2, h3⟩
  · exact Or.inl h2
  · exact Or.inr ⟨c, (List.take_sublist_take_left hk).subset h2, h3⟩

/-- The progress of a failing test. -/
theorem done_fail {t : Tab} {env : List (List Nat)} {k id : Nat} {q' : Rq}
    (h : Done (t.finish (env.headD [])) env.tail k id q') : ∃ q, Done t env (k + 1) id q ∧ q.status = q'.status := by
  obtain ⟨h1, h2⟩ := h
  cases env with
  | nil =>
    simp [Tab.finish] at h1 h2
    exact ⟨q', ⟨h1, Or.inl h2⟩, rfl⟩
  | cons c env =>
    simp only [List.headD_cons, List.tail_cons] at h1 h2
    simp only [Tab.finish] at h1
    by_cases hc : id ∈ c
    · rw [if_pos hc] at h1
      obtain ⟨q, h3, h4⟩ := Option.map_eq_some_iff.1 h1
      exact ⟨q, ⟨h3, Or.inr ⟨c, by simp, hc⟩⟩, by rw [← h4]⟩
    · rw [if_neg hc] at h1
      refine ⟨q', ⟨h1, ?_⟩, rfl⟩
      rcases h2 with h2 | ⟨d, h2, h3⟩
      · exact Or.inl h2
      · exact Or.inr ⟨d, by simp [h2], h3⟩

theorem done_free {t : Tab} {env : List (List Nat)} {k id id0 : Nat} {q : Rq} (hne : id ≠ id0) (h : Done (t.free id0) env k id q) :
    Done t env k id q := by
  refine ⟨?_, h.2⟩
  have := h.1
  simp only [Tab.free] at this
  rw [if_neg hne] at this
  exact this

theorem complete_finish {t : Tab} {c : List Nat} {id : Nat} (h : ∃ q, t id = some q ∧ q.complete = true) :
    ∃ q, t.finish c id = some q ∧ q.complete = true := by
  obtain ⟨q, h1, h2⟩ := h
  simp only [Tab.finish]
  by_cases hc : id ∈ c
  · rw [if_pos hc, h1]; exact ⟨_, rfl, rfl⟩
  · rw [if_neg hc]; exact ⟨q, h1, h2⟩

/-- The three outcomes of one test. -/
theorem testP_cases {t t1 : Tab} {env env1 : List (List Nat)} {o o' : Option Nat} {b : Bool} {st : Option Int}
    (h : testP t env o = .ok (b, t1, o', st, env1)) :
    (o = Option.none ∧ b = true ∧ t1 = t ∧ env1 = env ∧ st = Option.none ∧ o' = Option.none) ∨
    (∃ id q, o = some id ∧ t id = some q ∧ q.complete = true ∧ b = true ∧ t1 = t.free id ∧ env1 = env ∧ st = some q.status ∧
      o' = Option.none) ∨
    (∃ id q, o = some id ∧ t id = some q ∧ q.complete = false ∧ b = false ∧ t1 = t.finish (env.headD []) ∧ env1 = env.tail ∧
      o' = some id) := by
  cases o with
  | none =>
    simp only [testP, Except.ok.injEq, Prod.mk.injEq] at h
    obtain ⟨h1, h2, h3, h4, h5⟩ := h
    exact Or.inl ⟨rfl, h1.symm, h2.symm, h5.symm, h4.symm, h3.symm⟩
  | some id =>
    simp only [testP] at h
    cases ht : t id with
    | none => rw [ht] at h; exact absurd h (by simp)
    | some q =>
      rw [ht] at h
      simp only at h
      cases hc : q.complete with
      | true =>
        rw [hc] at h
        simp only [if_true, Except.ok.injEq, Prod.mk.injEq] at h
        obtain ⟨h1, h2, h3, h4, h5⟩ := h
        exact Or.inr (Or.inl ⟨id, q, rfl, ht, hc, h1.symm, h2.symm, h5.symm, h4.symm, h3.symm⟩)
      | false =>
        rw [hc] at h
        simp only [Bool.false_eq_true, if_false, Except.ok.injEq, Prod.mk.injEq] at h
        obtain ⟨h1, h2, h3, -, h5⟩ := h
        exact Or.inr (Or.inr ⟨id, q, rfl, ht, hc, h1.symm, h2.symm, h5.symm, h3.symm⟩)

/-- `MPI_Testsome` with a test delay, without null requests or with them counted as completed:
the indices are increasing; each is that of a request completed by then; every request complete at
the call is reported; the statuses written are those of the reported requests. -/
theorem C22_testsome_progress_partial (t : Tab) (env : List (List Nat)) (l : List (Option Nat)) (i0 : Nat) (r : Res)
    (hdistinct : (l.filterMap id).Nodup) (h : testsomeP t env i0 l = .ok r) :
    r.indices.Pairwise (· < ·) ∧
      (∀ j ∈ r.indices, ∃ i o, j = i0 + i ∧ l[i]? = some o ∧
        ∀ id, o = some id → ∃ q, Done t env i id q ∧ (j, q.status) ∈ r.writes) ∧
      (∀ (i : Nat) (o : Option Nat), l[i]? = some o → (∀ id, o = some id → ∃ q, t id = some q ∧ q.complete = true) → i0 + i ∈ r.indices) := by
  induction l generalizing t env i0 r with
  | nil =>
    simp only [testsomeP, Except.ok.injEq] at h
    subst h
    simp
  | cons o l ih =>
    simp only [testsomeP] at h
    cases ht : testP t env o with
    | error e => rw [ht] at h; exact absurd h (by simp)
    | ok x =>
      obtain ⟨b, t1, o', st, env1⟩ := x
      rw [ht] at h
      simp only at h
      cases hc : testsomeP t1 env1 (i0 + 1) l with
      | error e => rw [hc] at h; exact absurd h (by simp)
      | ok r1 =>
        rw [hc] at h
        simp only at h
        have hnd : (l.filterMap id).Nodup := by
          cases o with
          | none => simpa using hdistinct
          | some i => exact ((List.nodup_cons.1 (by simpa using hdistinct)).2)
        obtain ⟨e1, e2, e3⟩ := ih t1 env1 (i0 + 1) r1 hnd hc
        have hlt : ∀ j ∈ r1.indices, i0 < j := by
          intro j hj
          obtain ⟨i, o, h1, -⟩ := e2 j hj
          omega
        -- what the rest reports, seen from the beginning
        have back : ∀ (i id : Nat), l[i]? = some (some id) → ∀ q', Done t1 env1 i id q' → ∃ q, Done t env (i + 1) id q ∧ q.status = q'.status := by
          intro i id hl q' hq
          rcases testP_cases ht with ⟨-, -, h1, h2, -⟩ | ⟨id0, q0, h0, -, -, -, h1, h2, -⟩ | ⟨id0, q0, h0, -, -, -, h1, h2, -⟩
          · rw [h1, h2] at hq
            exact ⟨q', hq.mono (by omega), rfl⟩
          · rw [h1, h2] at hq
            have hne : id ≠ id0 := by
              rintro rfl
              rw [h0] at hdistinct
              have : id ∉ l.filterMap _root_.id := (List.nodup_cons.1 (by simpa using hdistinct)).1
              exact this (mem_filterMap_id.2 (List.mem_of_getElem? hl))
            exact ⟨q', (done_free hne hq).mono (by omega), rfl⟩
          · rw [h1, h2] at hq
            exact done_fail hq
        have fwd : ∀ (i id : Nat), l[i]? = some (some id) → (∃ q, t id = some q ∧ q.complete = true) → ∃ q, t1 id = some q ∧ q.complete = true := by
          intro i id hl hq
          rcases testP_cases ht with ⟨-, -, h1, -⟩ | ⟨id0, q0, h0, -, -, -, h1, -⟩ | ⟨id0, q0, h0, -, -, -, h1, -⟩
          · rw [h1]; exact hq
          · rw [h1]
            have hne : id ≠ id0 := by
              rintro rfl
              rw [h0] at hdistinct
              have : id ∉ l.filterMap _root_.id := (List.nodup_cons.1 (by simpa using hdistinct)).1
              exact this (mem_filterMap_id.2 (List.mem_of_getElem? hl))
            simp only [Tab.free]
            rw [if_neg hne]; exact hq
          · rw [h1]; exact complete_finish hq
        cases b with
        | true =>
          simp only [if_true, Except.ok.injEq] at h
          subst h
          refine ⟨List.pairwise_cons.2 ⟨hlt, e1⟩, ?_, ?_⟩
          · intro j hj
            simp only [List.mem_cons] at hj
            rcases hj with hj | hj
            · refine ⟨0, o, by omega, by simp, ?_⟩
              intro id hid
              rcases testP_cases ht with ⟨h1, -⟩ | ⟨id0, q0, h0, h1, h2, -, -, -, h3, -⟩ | ⟨id0, q0, -, -, -, h1, -⟩
              · rw [h1] at hid; exact absurd hid (by simp)
              · rw [h0] at hid
                have := Option.some.inj hid
                subst this
                refine ⟨q0, ⟨h1, Or.inl h2⟩, ?_⟩
                rw [hj, h3]; simp
              · exact absurd h1 (by simp)
            · obtain ⟨i, o1, h1, h2, h3⟩ := e2 j hj
              refine ⟨i + 1, o1, by omega, by simpa using h2, ?_⟩
              intro id hid
              obtain ⟨q', h4, h5⟩ := h3 id hid
              obtain ⟨q, h6, h7⟩ := back i id (by rw [h2, hid]) q' h4
              exact ⟨q, h6, by rw [h7]; exact List.mem_append_right _ h5⟩
          · intro i o1 h1 h2
            cases i with
            | zero => simp
            | succ i =>
              have h1 : l[i]? = some o1 := by simpa using h1
              have := e3 i o1 h1 (fun id hid => fwd i id (by rw [h1, hid]) (h2 id hid))
              simp only [List.mem_cons]
              right
              have he : i0 + (i + 1) = i0 + 1 + i := by omega
              rw [he]; exact this
        | false =>
          simp only [Bool.false_eq_true, if_false, Except.ok.injEq] at h
          subst h
          refine ⟨e1, ?_, ?_⟩
          · intro j hj
            obtain ⟨i, o1, h1, h2, h3⟩ := e2 j hj
            refine ⟨i + 1, o1, by omega, by simpa using h2, ?_⟩
            intro id hid
            obtain ⟨q', h4, h5⟩ := h3 id hid
            obtain ⟨q, h6, h7⟩ := back i id (by rw [h2, hid]) q' h4
            exact ⟨q, h6, by rw [h7]; exact h5⟩
          · intro i o1 h1 h2
            cases i with
            | zero =>
              exfalso
              have h1 : o1 = o := by simpa using h1.symm
              subst h1
              rcases testP_cases ht with ⟨-, h1, -⟩ | ⟨id0, q0, -, -, -, h1, -⟩ | ⟨id0, q0, h0, h1, h3, -⟩
              · exact absurd h1 (by simp)
              · exact absurd h1 (by simp)
              · obtain ⟨q, h4, h5⟩ := h2 id0 h0
                rw [h1] at h4
                rw [← Option.some.inj h4, h3] at h5
                exact absurd h5 (by simp)
            | succ i =>
              have h1 : l[i]? = some o1 := by simpa using h1
              have := e3 i o1 h1 (fun id hid => fwd i id (by rw [h1, hid]) (h2 id hid))
              have he : i0 + (i + 1) = i0 + 1 + i := by omega
              rw [he]; exact this

/-- Request 11 is completed by the message that arrives during the failing test of request 12. -/
example : showRes (testsomeP demoTab [[11]] 0 [some 12, some 11, some 10]) = ([some 12, Option.none, Option.none], [(1, 8), (2, 7)], [1, 2], 0) := by
  decide

/-- `MPI_Testall` with a test delay answers true exactly when every request was complete at the
call. -/
theorem C22_testall_progress_partial (t : Tab) (env : List (List Nat)) (l : List (Option Nat)) (i0 : Nat) (b : Bool) (r : Res)
    (hdistinct : (l.filterMap id).Nodup) (h : testallP t env i0 l = .ok (b, r)) :
    b = true ↔ ∀ id, some id ∈ l → ∃ q, t id = some q ∧ q.complete = true := by
  induction l generalizing t env i0 b r with
  | nil =>
    simp only [testallP, Except.ok.injEq, Prod.mk.injEq] at h
    simp [← h.1]
  | cons o l ih =>
    simp only [testallP] at h
    cases ht : testP t env o with
    | error e => rw [ht] at h; exact absurd h (by simp)
    | ok x =>
      obtain ⟨b1, t1, o', st, env1⟩ := x
      rw [ht] at h
      have hnd : (l.filterMap id).Nodup := by
        cases o with
        | none => simpa using hdistinct
        | some i => exact ((List.nodup_cons.1 (by simpa using hdistinct)).2)
      cases b1 with
      | false =>
        simp only [Except.ok.injEq, Prod.mk.injEq] at h
        rcases testP_cases ht with ⟨-, h1, -⟩ | ⟨id0, q0, -, -, -, h1, -⟩ | ⟨id0, q0, h0, h1, h3, -⟩
        · exact absurd h1 (by simp)
        · exact absurd h1 (by simp)
        · rw [← h.1]
          constructor
          · intro hx; exact absurd hx (by simp)
          · intro hx
            obtain ⟨q, h4, h5⟩ := hx id0 (by rw [h0]; simp)
            rw [h1] at h4
            rw [← Option.some.inj h4, h3] at h5
            exact absurd h5 (by simp)
      | true =>
        simp only at h
        cases hc : testallP t1 env1 (i0 + 1) l with
        | error e => rw [hc] at h; exact absurd h (by simp)
        | ok y =>
          obtain ⟨b2, r2⟩ := y
          rw [hc] at h
          simp only [Except.ok.injEq, Prod.mk.injEq] at h
          rw [← h.1, ih t1 env1 (i0 + 1) b2 r2 hnd hc]
          rcases testP_cases ht with ⟨h0, -, h1, -⟩ | ⟨id0, q0, h0, h2, h3, -, h1, -⟩ | ⟨id0, q0, -, -, -, h1, -⟩
          · rw [h0, h1]
            constructor
            · intro hx id hid
              simp only [List.mem_cons, reduceCtorEq, false_or] at hid
              exact hx id hid
            · intro hx id hid
              exact hx id (List.mem_cons_of_mem _ hid)
          · have hne : ∀ id, some id ∈ l → id ≠ id0 := by
              rintro id hl rfl
              rw [h0] at hdistinct
              have : id ∉ l.filterMap _root_.id := (List.nodup_cons.1 (by simpa using hdistinct)).1
              exact this (mem_filterMap_id.2 hl)
            constructor
            · intro hx id hid
              rw [h0] at hid
              simp only [List.mem_cons, Option.some.injEq] at hid
              rcases hid with hid | hid
              · rw [hid]; exact ⟨q0, h2, h3⟩
              · obtain ⟨q, h4, h5⟩ := hx id hid
                rw [h1] at h4
                simp only [Tab.free] at h4
                rw [if_neg (hne id hid)] at h4
                exact ⟨q, h4, h5⟩
            · intro hx id hid
              obtain ⟨q, h4, h5⟩ := hx id (List.mem_cons_of_mem _ hid)
              refine ⟨q, ?_, h5⟩
              rw [h1]
              simp only [Tab.free]
              rw [if_neg (hne id hid)]; exact h4
          · exact absurd h1 (by simp)

example : ∃ r, testallP demoTab [[11]] 0 [some 10, some 11] = .ok (false, r) := ⟨_, rfl⟩

/-- `MPI_Testany` with a test delay, on requests that are not null: if it answers true, the
request it names was completed by then, with its status; if it answers false, none was complete
at the call. -/
theorem C22_testany_progress_partial (t : Tab) (env : List (List Nat)) (l : List (Option Nat)) (i0 : Nat) (b : Bool) (r : Res)
    (hnull : Option.none ∉ l) (h : testanyP t env i0 l = .ok (b, r)) :
    (b = true → (∃ i id q, l[i]? = some (some id) ∧ r.indices = [i0 + i] ∧ Done t env i id q ∧ r.writes = [(i0 + i, q.status)]) ∨
      (r.indices = [] ∧ i0 + l.length = 0)) ∧
    (b = false → ∀ id, some id ∈ l → ∃ q, t id = some q ∧ q.complete = false) := by
  suffices hs : ∀ (l : List (Option Nat)) (t : Tab) (env : List (List Nat)) (i0 : Nat) (b : Bool) (r : Res), Option.none ∉ l →
      testanyP t env i0 l = .ok (b, r) →
      (b = true → (∃ i id q, l[i]? = some (some id) ∧ r.indices = [i0 + i] ∧ Done t env i id q ∧ r.writes = [(i0 + i, q.status)]) ∨
        (r.indices = [] ∧ i0 + l.length = 0)) ∧
      (b = false → ∀ id, some id ∈ l → ∃ q, t id = some q ∧ q.complete = false) from hs l t env i0 b r hnull h
  clear h hnull l t env i0 b r
  intro l
  induction l with
  | nil =>
    intro t env i0 b r hnull h
    simp only [testanyP, Except.ok.injEq, Prod.mk.injEq] at h
    obtain ⟨h1, h2⟩ := h
    subst h2
    constructor
    · intro hb
      right
      rw [← h1] at hb
      exact ⟨rfl, by simpa using hb⟩
    · intro _ id hid
      simp at hid
  | cons o l ih =>
    intro t env i0 b r hnull h
    have hnull' : Option.none ∉ l := fun hx => hnull (List.mem_cons_of_mem _ hx)
    simp only [testanyP] at h
    cases ht : testP t env o with
    | error e => rw [ht] at h; exact absurd h (by simp)
    | ok x =>
      obtain ⟨b1, t1, o', st, env1⟩ := x
      rw [ht] at h
      cases b1 with
      | true =>
        simp only [Except.ok.injEq, Prod.mk.injEq] at h
        obtain ⟨h5, h6⟩ := h
        subst h6
        rcases testP_cases ht with ⟨h0, -⟩ | ⟨id0, q0, h0, h2, h3, -, h1, -, h4, -⟩ | ⟨id0, q0, -, -, -, h1, -⟩
        · rw [h0] at hnull; exact absurd (List.mem_cons_self) hnull
        · constructor
          · intro _
            left
            refine ⟨0, id0, q0, by rw [h0]; simp, by simp, ⟨h2, Or.inl h3⟩, ?_⟩
            rw [h4]; simp
          · intro hb
            rw [← h5] at hb
            exact absurd hb (by simp)
        · exact absurd h1 (by simp)
      | false =>
        simp only at h
        cases hc : testanyP t1 env1 (i0 + 1) l with
        | error e => rw [hc] at h; exact absurd h (by simp)
        | ok y =>
          obtain ⟨b2, r2⟩ := y
          rw [hc] at h
          simp only [Except.ok.injEq, Prod.mk.injEq] at h
          obtain ⟨h5, h6⟩ := h
          subst h6 h5
          obtain ⟨g1, g2⟩ := ih t1 env1 (i0 + 1) b2 r2 hnull' hc
          rcases testP_cases ht with ⟨-, h1, -⟩ | ⟨id0, q0, -, -, -, h1, -⟩ | ⟨id0, q0, h0, h2, h3, -, h1, h4, -⟩
          · exact absurd h1 (by simp)
          · exact absurd h1 (by simp)
          · constructor
            · intro hb
              rcases g1 hb with ⟨i, id, q', e1, e2, e3, e4⟩ | ⟨-, e2⟩
              · left
                rw [h1, h4] at e3
                obtain ⟨q, f1, f2⟩ := done_fail e3
                have he : i0 + 1 + i = i0 + (i + 1) := by omega
                exact ⟨i + 1, id, q, by simpa using e1, by rw [← he]; exact e2, f1, by rw [← he, f2]; exact e4⟩
              · omega
            · intro hb id hid
              simp only [List.mem_cons] at hid
              rcases hid with hid | hid
              · rw [h0] at hid
                rw [Option.some.inj hid]; exact ⟨q0, h2, h3⟩
              · obtain ⟨q, f1, f2⟩ := g2 hb id hid
                rw [h1] at f1
                simp only [Tab.finish] at f1
                by_cases hx : id ∈ env.headD []
                · rw [if_pos hx] at f1
                  obtain ⟨q2, f3, f4⟩ := Option.map_eq_some_iff.1 f1
                  rw [← f4] at f2
                  exact absurd f2 (by simp)
                · rw [if_neg hx] at f1
                  exact ⟨q, f1, f2⟩

example : ∃ r, testanyP demoTab [[11]] 0 [some 12, some 11] = .ok (true, r) ∧ r.indices = [1] := ⟨_, rfl, rfl⟩

end SST.Mpi
