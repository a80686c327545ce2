import Verif.Mpi.Wait

/-!
Property C22: the completion calls report exactly the completed requests.

Specification vocabulary: `Done t env k id q` - request `id` has record `q` in the table
when the call starts, and it is complete then or completed by one of the first `k` messages
that arrive during the call.
-/
set_option autoImplicit false
namespace SST.Mpi

/-- See above. -/
def Done (t : Tab) (env : List (List Nat)) (k id : Nat) (q : Rq) : Prop :=
  t id = some q ∧ (q.complete = true ∨ ∃ c ∈ env.take k, id ∈ c)

/-- What the array holds for a request after it has been reported. -/
def Freed (id : Nat) (q : Rq) (o : Option Nat) : Prop := o = if q.persistent = true then some id else Option.none

/-! ### Lemmas -/

/-- The table after `k` messages. -/
def afterK (t : Tab) (env : List (List Nat)) (k : Nat) : Tab := fun j =>
  (t j).map fun q => { q with complete := q.complete || (env.take k).any (fun c => decide (j ∈ c)) }

theorem afterK_zero (t : Tab) (env : List (List Nat)) : afterK t env 0 = t := by
  funext j
  simp [afterK]

theorem afterK_succ (t : Tab) (c : List Nat) (env : List (List Nat)) (k : Nat) :
    afterK (t.finish c) env k = afterK t (c :: env) (k + 1) := by
  funext j
  simp only [afterK, Tab.finish, List.take_succ_cons, List.any_cons]
  by_cases hj : j ∈ c
  · simp only [hj, if_true, Option.map_map, decide_true, Bool.true_or]
    congr 1
    funext q
    simp
  · simp only [hj, if_false, decide_false, Bool.false_or]

theorem progress_spec {ids : List Nat} {t t' : Tab} {env env' : List (List Nat)}
    (h : progress ids t env = some (t', env')) :
    ∃ k, env' = env.drop k ∧ t' = afterK t env k ∧ ids.any (isDone t') = true := by
  induction env generalizing t with
  | nil =>
    simp only [progress] at h
    split at h
    · rename_i hd
      simp only [Option.some.injEq, Prod.mk.injEq] at h
      obtain ⟨rfl, rfl⟩ := h
      exact ⟨0, rfl, (afterK_zero _ _).symm, hd⟩
    · simp at h
  | cons c env ih =>
    simp only [progress] at h
    split at h
    · rename_i hd
      simp only [Option.some.injEq, Prod.mk.injEq] at h
      obtain ⟨rfl, rfl⟩ := h
      exact ⟨0, rfl, (afterK_zero _ _).symm, hd⟩
    · obtain ⟨k, h1, h2, h3⟩ := ih h
      exact ⟨k + 1, by simpa using h1, by rw [h2, afterK_succ], h3⟩

theorem afterK_some {t : Tab} {env : List (List Nat)} {k j : Nat} {q' : Rq} :
    afterK t env k j = some q' ↔ ∃ q, t j = some q ∧
      q' = { q with complete := q.complete || (env.take k).any (fun c => decide (j ∈ c)) } := by
  simp only [afterK, Option.map_eq_some_iff]
  constructor
  · rintro ⟨q, h1, h2⟩; exact ⟨q, h1, h2.symm⟩
  · rintro ⟨q, h1, h2⟩; exact ⟨q, h1, h2.symm⟩

theorem done_afterK {t : Tab} {env : List (List Nat)} {k j : Nat} {q' : Rq} (h : afterK t env k j = some q')
    (hc : q'.complete = true) : ∃ q, Done t env k j q ∧ q.status = q'.status ∧ q.persistent = q'.persistent := by
  obtain ⟨q, h1, h2⟩ := afterK_some.1 h
  subst h2
  refine ⟨q, ⟨h1, ?_⟩, rfl, rfl⟩
  simp only [Bool.or_eq_true, List.any_eq_true, decide_eq_true_eq] at hc
  exact hc

theorem afterK_done {t : Tab} {env : List (List Nat)} {k j : Nat} {q : Rq} (h : Done t env k j q) :
    afterK t env k j = some { q with complete := true } := by
  rw [afterK_some]
  refine ⟨q, h.1, ?_⟩
  congr 1
  symm
  simp only [Bool.or_eq_true, List.any_eq_true, decide_eq_true_eq]
  exact h.2

theorem finalTab_ne (t : Tab) {id j : Nat} (q : Rq) (h : j ≠ id) : finalTab t id q j = t j := by
  unfold finalTab Tab.free
  split
  · rfl
  · simp [h]

theorem mem_filterMap_id {l : List (Option Nat)} {j : Nat} : j ∈ l.filterMap id ↔ some j ∈ l := by
  simp [List.mem_filterMap]

/-- What `waitall` does, at an offset. -/
theorem waitall_spec {l : List (Option Nat)} {t : Tab} {env : List (List Nat)} {i0 : Nat} {r : Res}
    (hnd : (l.filterMap id).Nodup) (h : waitall t env i0 l = .ok r) :
    ∃ k, r.env = env.drop k ∧ r.reqs.length = l.length ∧
      (∀ (i id : Nat), l[i]? = some (some id) → ∃ q o, Done t env k id q ∧ r.reqs[i]? = some o ∧ Freed id q o) ∧
      (∀ (i : Nat), l[i]? = some Option.none → r.reqs[i]? = some Option.none) ∧
      (∀ (j : Nat) (v : Int), (j, v) ∈ r.writes ↔ ∃ i id q, j = i0 + i ∧ l[i]? = some (some id) ∧ t id = some q ∧ v = q.status) := by
  induction l generalizing t env i0 r with
  | nil =>
    simp only [waitall, Except.ok.injEq] at h
    subst h
    exact ⟨0, rfl, rfl, by simp, by simp, by simp⟩
  | cons o l ih =>
    simp only [waitall] at h
    cases hd : doWait t env o with
    | error e => rw [hd] at h; simp at h
    | ok p =>
      obtain ⟨t1, o', st, env1⟩ := p
      rw [hd] at h
      simp only at h
      cases hw : waitall t1 env1 (i0 + 1) l with
      | error e => rw [hw] at h; simp at h
      | ok r1 =>
        rw [hw] at h
        simp only [Except.ok.injEq] at h
        subst h
        cases o with
        | none =>
          simp only [doWait, Except.ok.injEq, Prod.mk.injEq] at hd
          obtain ⟨rfl, rfl, rfl, rfl⟩ := hd
          obtain ⟨k, e1, e2, e3, e4, e5⟩ := ih (by simpa using hnd) hw
          refine ⟨k, e1, by simp [e2], ?_, ?_, ?_⟩
          · intro i id hi
            cases i with
            | zero => simp at hi
            | succ i => simpa using e3 i id (by simpa using hi)
          · intro i hi
            cases i with
            | zero => simp
            | succ i => simpa using e4 i (by simpa using hi)
          · intro j v
            simp only [Option.map_none, Option.toList_none, List.nil_append]
            rw [e5]
            constructor
            · rintro ⟨i, id, q, rfl, h1, h2⟩
              exact ⟨i + 1, id, q, by omega, by simpa using h1, h2⟩
            · rintro ⟨i, id, q, rfl, h1, h2⟩
              cases i with
              | zero => simp at h1
              | succ i => exact ⟨i, id, q, by omega, by simpa using h1, h2⟩
        | some id0 =>
          have hnd' : id0 ∉ l.filterMap id ∧ (l.filterMap id).Nodup := by simpa using hnd
          simp only [doWait] at hd
          cases ht : t id0 with
          | none => rw [ht] at hd; simp at hd
          | some q0 =>
            rw [ht] at hd
            simp only at hd
            cases hp : progress [id0] t env with
            | none => rw [hp] at hd; simp at hd
            | some p =>
              obtain ⟨t2, env2⟩ := p
              obtain ⟨k0, p1, p2, p3⟩ := progress_spec hp
              rw [hp] at hd
              simp only at hd
              cases ht2 : t2 id0 with
              | none => rw [ht2] at hd; simp at hd
              | some q2 =>
                rw [ht2] at hd
                simp only [Except.ok.injEq, Prod.mk.injEq] at hd
                obtain ⟨rfl, rfl, rfl, rfl⟩ := hd
                obtain ⟨k, e1, e2, e3, e4, e5⟩ := ih hnd'.2 hw
                have hq2c : q2.complete = true := by simpa [isDone, ht2] using p3
                rw [p2] at ht2
                obtain ⟨q, hdone, hst, hpe⟩ := done_afterK ht2 hq2c
                have hsame : ∀ j, some j ∈ l → finalTab t2 id0 q2 j = afterK t env k0 j := by
                  intro j hj
                  rw [finalTab_ne _ _ ?_, p2]
                  rintro rfl
                  exact hnd'.1 (mem_filterMap_id.2 hj)
                have hmono : ∀ q, Done t env k0 id0 q → Done t env (k0 + k) id0 q := by
                  rintro q ⟨h1, h2 | ⟨c, h2, h3⟩⟩
                  · exact ⟨h1, .inl h2⟩
                  · exact ⟨h1, .inr ⟨c, by rw [List.take_add]; exact List.mem_append_left _ h2, h3⟩⟩
                refine ⟨k0 + k, by rw [e1, p1, List.drop_drop], by simp [e2], ?_, ?_, ?_⟩
                · intro i id hi
                  cases i with
                  | zero =>
                    simp at hi
                    subst hi
                    refine ⟨q, _, hmono q hdone, by simp; rfl, ?_⟩
                    simp [Freed, finalEntry, hpe]
                  | succ i =>
                    simp at hi
                    obtain ⟨q', o, h1, h2, h3⟩ := e3 i id hi
                    have hin : some id ∈ l := List.mem_of_getElem? hi
                    have h4 := h1.1
                    rw [hsame id hin] at h4
                    obtain ⟨q'', h5, h6⟩ := afterK_some.1 h4
                    refine ⟨q'', o, ⟨h5, ?_⟩, by simpa using h2, ?_⟩
                    · rcases h1.2 with h7 | ⟨c, h7, h8⟩
                      · rw [h6] at h7
                        simp only [Bool.or_eq_true, List.any_eq_true, decide_eq_true_eq] at h7
                        rcases h7 with h7 | ⟨c, h7, h8⟩
                        · exact .inl h7
                        · exact .inr ⟨c, by rw [List.take_add]; exact List.mem_append_left _ h7, h8⟩
                      · rw [p1] at h7
                        exact .inr ⟨c, by rw [List.take_add]; exact List.mem_append_right _ h7, h8⟩
                    · rw [h6] at h3; exact h3
                · intro i hi
                  cases i with
                  | zero => simp at hi
                  | succ i => simpa using e4 i (by simpa using hi)
                · intro j v
                  simp only [Option.map_some, Option.toList_some, List.singleton_append, List.mem_cons, Prod.mk.injEq]
                  rw [e5]
                  constructor
                  · rintro (⟨rfl, rfl⟩ | ⟨i, id, q', rfl, h1, h2, h3⟩)
                    · exact ⟨0, id0, q, by omega, by simp, hdone.1, hst.symm⟩
                    · rw [hsame id (List.mem_of_getElem? h1)] at h2
                      obtain ⟨q'', h5, h6⟩ := afterK_some.1 h2
                      exact ⟨i + 1, id, q'', by omega, by simpa using h1, h5, by rw [h3, h6]⟩
                  · rintro ⟨i, id, q', rfl, h1, h2, h3⟩
                    cases i with
                    | zero =>
                      simp at h1
                      subst h1
                      left
                      have : q' = q := by have := hdone.1; rw [h2] at this; simpa using this
                      subst this
                      exact ⟨by omega, by rw [h3, hst]⟩
                    | succ i =>
                      simp at h1
                      right
                      refine ⟨i, id, { q' with complete := q'.complete || (env.take k0).any (fun c => decide (id ∈ c)) }, by omega, h1, ?_, ?_⟩
                      · rw [hsame id (List.mem_of_getElem? h1)]; exact afterK_some.2 ⟨q', h2, rfl⟩
                      · exact h3

/-- What the loop of `waitsome` does, at an offset. -/
theorem collect_spec {l : List (Option Nat)} {t : Tab} {i0 : Nat} {r : Res}
    (hnd : (l.filterMap id).Nodup) (h : collect t i0 l = .ok r) :
    r.reqs.length = l.length ∧ r.indices.Pairwise (· < ·) ∧
      (∀ j, j ∈ r.indices ↔ ∃ i id q, j = i0 + i ∧ l[i]? = some (some id) ∧ t id = some q ∧ q.complete = true) ∧
      (∀ (i id : Nat) (q : Rq), l[i]? = some (some id) → t id = some q → q.complete = true →
        ∃ o, r.reqs[i]? = some o ∧ Freed id q o) ∧
      (∀ (i : Nat), i < l.length → i0 + i ∉ r.indices → r.reqs[i]? = l[i]?) ∧
      (∀ (j : Nat) (v : Int), (j, v) ∈ r.writes ↔ ∃ i id q, j = i0 + i ∧ l[i]? = some (some id) ∧ t id = some q ∧
        q.complete = true ∧ v = q.status) := by
  induction l generalizing t i0 r with
  | nil =>
    simp only [collect, Except.ok.injEq] at h
    subst h
    simp
  | cons o l ih =>
    have key : ∀ {t1 : Tab} {r1 : Res}, collect t1 (i0 + 1) l = .ok r1 → (l.filterMap id).Nodup →
        (∀ j, some j ∈ l → t1 j = t j) →
        r1.reqs.length = l.length ∧ r1.indices.Pairwise (· < ·) ∧ (∀ j ∈ r1.indices, i0 < j) ∧
        (∀ j, j ∈ r1.indices ↔ ∃ i id q, j = i0 + (i + 1) ∧ l[i]? = some (some id) ∧ t id = some q ∧ q.complete = true) ∧
        (∀ (i id : Nat) (q : Rq), l[i]? = some (some id) → t id = some q → q.complete = true →
          ∃ o, r1.reqs[i]? = some o ∧ Freed id q o) ∧
        (∀ (i : Nat), i < l.length → i0 + (i + 1) ∉ r1.indices → r1.reqs[i]? = l[i]?) ∧
        (∀ (j : Nat) (v : Int), (j, v) ∈ r1.writes ↔ ∃ i id q, j = i0 + (i + 1) ∧ l[i]? = some (some id) ∧ t id = some q ∧
          q.complete = true ∧ v = q.status) := by
      intro t1 r1 hc hn hsame
      obtain ⟨e1, e2, e3, e4, e5, e6⟩ := ih hn hc
      have e3' : ∀ j, j ∈ r1.indices ↔ ∃ i id q, j = i0 + (i + 1) ∧ l[i]? = some (some id) ∧ t id = some q ∧ q.complete = true := by
        intro j
        rw [e3]
        constructor
        · rintro ⟨i, id, q, rfl, h1, h2, h3⟩
          exact ⟨i, id, q, by omega, h1, by rw [← hsame id (List.mem_of_getElem? h1)]; exact h2, h3⟩
        · rintro ⟨i, id, q, rfl, h1, h2, h3⟩
          exact ⟨i, id, q, by omega, h1, by rw [hsame id (List.mem_of_getElem? h1)]; exact h2, h3⟩
      refine ⟨e1, e2, ?_, e3', ?_, ?_, ?_⟩
      · intro j hj
        obtain ⟨i, _, _, h1, _⟩ := (e3' j).1 hj
        omega
      · intro i id q h1 h2 h3
        exact e4 i id q h1 (by rw [hsame id (List.mem_of_getElem? h1)]; exact h2) h3
      · intro i hi hn
        exact e5 i hi (by rw [show i0 + 1 + i = i0 + (i + 1) by omega]; exact hn)
      · intro j v
        rw [e6]
        constructor
        · rintro ⟨i, id, q, rfl, h1, h2, h3⟩
          exact ⟨i, id, q, by omega, h1, by rw [← hsame id (List.mem_of_getElem? h1)]; exact h2, h3⟩
        · rintro ⟨i, id, q, rfl, h1, h2, h3⟩
          exact ⟨i, id, q, by omega, h1, by rw [hsame id (List.mem_of_getElem? h1)]; exact h2, h3⟩
    cases o with
    | none =>
      simp only [collect] at h
      cases hc : collect t (i0 + 1) l with
      | error e => rw [hc] at h; simp at h
      | ok r1 =>
        rw [hc] at h
        simp only [Except.ok.injEq] at h
        subst h
        obtain ⟨e1, e2, e2', e3, e4, e5, e6⟩ := key hc (by simpa using hnd) (fun _ _ => rfl)
        refine ⟨by simp [e1], e2, ?_, ?_, ?_, ?_⟩
        · intro j
          rw [e3]
          constructor
          · rintro ⟨i, id, q, h1, h2, h3⟩; exact ⟨i + 1, id, q, h1, by simpa using h2, h3⟩
          · rintro ⟨i, id, q, h1, h2, h3⟩
            cases i with
            | zero => simp at h2
            | succ i => exact ⟨i, id, q, h1, by simpa using h2, h3⟩
        · intro i id q h1 h2 h3
          cases i with
          | zero => simp at h1
          | succ i => simpa using e4 i id q (by simpa using h1) h2 h3
        · intro i hi hn
          cases i with
          | zero => simp
          | succ i => simpa using e5 i (by simpa using hi) hn
        · intro j v
          rw [e6]
          constructor
          · rintro ⟨i, id, q, h1, h2, h3⟩; exact ⟨i + 1, id, q, h1, by simpa using h2, h3⟩
          · rintro ⟨i, id, q, h1, h2, h3⟩
            cases i with
            | zero => simp at h2
            | succ i => exact ⟨i, id, q, h1, by simpa using h2, h3⟩
    | some id0 =>
      have hnd' : id0 ∉ l.filterMap id ∧ (l.filterMap id).Nodup := by simpa using hnd
      simp only [collect] at h
      cases ht : t id0 with
      | none => rw [ht] at h; simp at h
      | some q0 =>
        rw [ht] at h
        simp only at h
        split at h
        · rename_i hcomp
          cases hc : collect (finalTab t id0 q0) (i0 + 1) l with
          | error e => rw [hc] at h; simp at h
          | ok r1 =>
            rw [hc] at h
            simp only [Except.ok.injEq] at h
            subst h
            obtain ⟨e1, e2, e2', e3, e4, e5, e6⟩ := key hc hnd'.2 (by
              intro j hj
              refine finalTab_ne _ _ ?_
              rintro rfl
              exact hnd'.1 (mem_filterMap_id.2 hj))
            refine ⟨by simp [e1], ?_, ?_, ?_, ?_, ?_⟩
            · exact List.pairwise_cons.2 ⟨fun j hj => e2' j hj, e2⟩
            · intro j
              rw [List.mem_cons, e3]
              constructor
              · rintro (rfl | ⟨i, id, q, h1, h2, h3⟩)
                · exact ⟨0, id0, q0, by omega, by simp, ht, hcomp⟩
                · exact ⟨i + 1, id, q, h1, by simpa using h2, h3⟩
              · rintro ⟨i, id, q, h1, h2, h3⟩
                cases i with
                | zero => exact .inl (by omega)
                | succ i => exact .inr ⟨i, id, q, h1, by simpa using h2, h3⟩
            · intro i id q h1 h2 h3
              cases i with
              | zero =>
                simp at h1
                subst h1
                have : q = q0 := by rw [ht] at h2; simpa using h2.symm
                subst this
                exact ⟨_, by simp; rfl, by simp [Freed, finalEntry]⟩
              | succ i => simpa using e4 i id q (by simpa using h1) h2 h3
            · intro i hi hn
              cases i with
              | zero => exact absurd (List.mem_cons_self ..) hn
              | succ i => simpa using e5 i (by simpa using hi) (fun hm => hn (List.mem_cons_of_mem _ hm))
            · intro j v
              rw [List.mem_cons, e6]
              constructor
              · rintro (h1 | ⟨i, id, q, h1, h2, h3⟩)
                · simp only [Prod.mk.injEq] at h1
                  exact ⟨0, id0, q0, by omega, by simp, ht, hcomp, h1.2⟩
                · exact ⟨i + 1, id, q, h1, by simpa using h2, h3⟩
              · rintro ⟨i, id, q, h1, h2, h3, h4, h5⟩
                cases i with
                | zero =>
                  simp at h2
                  subst h2
                  have : q = q0 := by rw [ht] at h3; simpa using h3.symm
                  subst this
                  exact .inl (by simp [h5]; omega)
                | succ i => exact .inr ⟨i, id, q, h1, by simpa using h2, h3, h4, h5⟩
        · rename_i hcomp
          cases hc : collect t (i0 + 1) l with
          | error e => rw [hc] at h; simp at h
          | ok r1 =>
            rw [hc] at h
            simp only [Except.ok.injEq] at h
            subst h
            obtain ⟨e1, e2, e2', e3, e4, e5, e6⟩ := key hc hnd'.2 (fun _ _ => rfl)
            have hno : ∀ q, t id0 = some q → q.complete = true → False := by
              intro q h1 h2
              rw [ht] at h1
              simp only [Option.some.injEq] at h1
              subst h1
              exact hcomp h2
            refine ⟨by simp [e1], e2, ?_, ?_, ?_, ?_⟩
            · intro j
              rw [e3]
              constructor
              · rintro ⟨i, id, q, h1, h2, h3⟩; exact ⟨i + 1, id, q, h1, by simpa using h2, h3⟩
              · rintro ⟨i, id, q, h1, h2, h3, h4⟩
                cases i with
                | zero => simp at h2; subst h2; exact (hno q h3 h4).elim
                | succ i => exact ⟨i, id, q, h1, by simpa using h2, h3, h4⟩
            · intro i id q h1 h2 h3
              cases i with
              | zero => simp at h1; subst h1; exact (hno q h2 h3).elim
              | succ i => simpa using e4 i id q (by simpa using h1) h2 h3
            · intro i hi hn
              cases i with
              | zero => simp
              | succ i => simpa using e5 i (by simpa using hi) hn
            · intro j v
              rw [e6]
              constructor
              · rintro ⟨i, id, q, h1, h2, h3⟩; exact ⟨i + 1, id, q, h1, by simpa using h2, h3⟩
              · rintro ⟨i, id, q, h1, h2, h3, h4, h5⟩
                cases i with
                | zero => simp at h2; subst h2; exact (hno q h3 h4).elim
                | succ i => exact ⟨i, id, q, h1, by simpa using h2, h3, h4, h5⟩

/-- What the first loop of `waitany` does, at an offset. -/
theorem pick_spec {l : List (Option Nat)} {t : Tab} {i0 : Nat} {r : Res} (h : pick t i0 l = .ok r) :
    (r.indices = [] ∧ ∀ (id : Nat) (q : Rq), some id ∈ l → t id = some q → q.complete = false) ∨
    (∃ i id q o, r.indices = [i0 + i] ∧ l[i]? = some (some id) ∧ t id = some q ∧ q.complete = true ∧
      r.writes = [(i0 + i, q.status)] ∧ Freed id q o ∧ r.reqs = l.set i o ∧
      ∀ (j id' : Nat) (q' : Rq), j < i → l[j]? = some (some id') → t id' = some q' → q'.complete = false) := by
  induction l generalizing i0 r with
  | nil =>
    simp only [pick, Except.ok.injEq] at h
    subst h
    exact .inl ⟨rfl, by simp⟩
  | cons o l ih =>
    cases o with
    | none =>
      simp only [pick] at h
      cases hc : pick t (i0 + 1) l with
      | error e => rw [hc] at h; simp at h
      | ok r1 =>
        rw [hc] at h
        simp only [Except.ok.injEq] at h
        subst h
        rcases ih hc with ⟨h1, h2⟩ | ⟨i, id, q, o, h1, h2, h3, h4, h5, h6, h7, h8⟩
        · exact .inl ⟨h1, by intro id q hm; exact h2 id q (by simpa using hm)⟩
        · refine .inr ⟨i + 1, id, q, o, by simp only [h1]; congr 1; omega, by simpa using h2, h3, h4,
            by simp only [h5]; congr 2; omega, h6, by simp [h7], ?_⟩
          intro j id' q' hj hl
          cases j with
          | zero => simp at hl
          | succ j => exact h8 j id' q' (by omega) (by simpa using hl)
    | some id0 =>
      simp only [pick] at h
      cases ht : t id0 with
      | none => rw [ht] at h; simp at h
      | some q0 =>
        rw [ht] at h
        simp only at h
        split at h
        · rename_i hcomp
          simp only [Except.ok.injEq] at h
          subst h
          exact .inr ⟨0, id0, q0, finalEntry id0 q0, rfl, by simp, ht, hcomp, rfl, by simp [Freed, finalEntry], by simp, by intro j _ _ hj; omega⟩
        · rename_i hcomp
          have hcf : q0.complete = false := by simpa using hcomp
          cases hc : pick t (i0 + 1) l with
          | error e => rw [hc] at h; simp at h
          | ok r1 =>
            rw [hc] at h
            simp only [Except.ok.injEq] at h
            subst h
            rcases ih hc with ⟨h1, h2⟩ | ⟨i, id, q, o, h1, h2, h3, h4, h5, h6, h7, h8⟩
            · refine .inl ⟨h1, ?_⟩
              intro id q hm hq
              rcases List.mem_cons.1 hm with hm | hm
              · simp only [Option.some.injEq] at hm
                subst hm
                rw [ht] at hq
                simp only [Option.some.injEq] at hq
                subst hq
                exact hcf
              · exact h2 id q hm hq
            · refine .inr ⟨i + 1, id, q, o, by simp only [h1]; congr 1; omega, by simpa using h2, h3, h4,
                by simp only [h5]; congr 2; omega, h6, by simp [h7], ?_⟩
              intro j id' q' hj hl hq'
              cases j with
              | zero =>
                simp at hl
                subst hl
                rw [ht] at hq'
                simp only [Option.some.injEq] at hq'
                subst hq'
                exact hcf
              | succ j => exact h8 j id' q' (by omega) (by simpa using hl) hq'

theorem not_done {t : Tab} {env : List (List Nat)} {k : Nat} {id : Nat} {q : Rq} (h : Done t env k id q) :
    ∃ q', afterK t env k id = some q' ∧ q'.complete = true := ⟨_, afterK_done h, rfl⟩

/-! ### C22 -/

/-- `MPI_Waitall` (and `MPI_Wait`, the case of one request): when it returns, every request
in the array has completed, its status is written at its own position, and its entry has
been reset (kept for a persistent request); null entries stay null and get no status. -/
theorem C22_waitall (t : Tab) (env : List (List Nat)) (l : List (Option Nat)) (r : Res)
    (hdistinct : (l.filterMap id).Nodup) (h : waitall t env 0 l = .ok r) :
    ∃ k, r.env = env.drop k ∧ r.reqs.length = l.length ∧
      (∀ (i id : Nat), l[i]? = some (some id) → ∃ q o, Done t env k id q ∧ r.reqs[i]? = some o ∧ Freed id q o) ∧
      (∀ (i : Nat), l[i]? = some Option.none → r.reqs[i]? = some Option.none) ∧
      (∀ (i : Nat) (v : Int), (i, v) ∈ r.writes ↔ ∃ id q, l[i]? = some (some id) ∧ t id = some q ∧ v = q.status) := by
  obtain ⟨k, h1, h2, h3, h4, h5⟩ := waitall_spec hdistinct h
  refine ⟨k, h1, h2, h3, h4, ?_⟩
  intro i v
  rw [h5]
  constructor
  · rintro ⟨j, id, q, e, h6⟩
    rw [Nat.zero_add] at e
    subst e
    exact ⟨id, q, h6⟩
  · rintro ⟨id, q, h6⟩
    exact ⟨i, id, q, by omega, h6⟩

/-- `MPI_Waitany` returns the first request of the array that has completed by the time it
returns, with that request's status, and changes only that entry. -/
theorem C22_waitany (t : Tab) (env : List (List Nat)) (l : List (Option Nat)) (r : Res)
    (h : waitany t env l = .ok r) :
    ∃ k i id q o, r.env = env.drop k ∧ r.indices = [i] ∧ l[i]? = some (some id) ∧ Done t env k id q ∧
      r.writes = [(i, q.status)] ∧ Freed id q o ∧ r.reqs = l.set i o ∧
      ∀ (j id' : Nat) (q' : Rq), j < i → l[j]? = some (some id') → ¬ Done t env k id' q' := by
  unfold waitany at h
  cases hp : pick t 0 l with
  | error e => rw [hp] at h; simp at h
  | ok r0 =>
    rw [hp] at h
    simp only at h
    rcases pick_spec hp with ⟨h1, h2⟩ | ⟨i, id, q, o, h1, h2, h3, h4, h5, h6, h7, h8⟩
    · rw [if_neg (by simp [h1])] at h
      split at h
      · simp at h
      · cases hg : progress (l.filterMap id) t env with
        | none => rw [hg] at h; simp at h
        | some p =>
          obtain ⟨t1, env1⟩ := p
          rw [hg] at h
          simp only at h
          obtain ⟨k, p1, p2, p3⟩ := progress_spec hg
          cases hp1 : pick t1 0 l with
          | error e => rw [hp1] at h; simp at h
          | ok r1 =>
            rw [hp1] at h
            simp only at h
            split at h
            · simp at h
            · rename_i hne
              simp only [Except.ok.injEq] at h
              subst h
              rcases pick_spec hp1 with ⟨g1, _⟩ | ⟨i, id, q, o, g1, g2, g3, g4, g5, g6, g7, g8⟩
              · exact absurd g1 hne
              · rw [p2] at g3
                obtain ⟨q', d1, d2, d3⟩ := done_afterK g3 g4
                refine ⟨k, i, id, q', o, p1, by simpa using g1, g2, d1, by simp [g5, d2], ?_, g7, ?_⟩
                · simpa [Freed, d3] using g6
                · intro j id' q'' hj hl hd
                  have := g8 j id' _ hj hl (by rw [p2]; exact afterK_done hd)
                  simp at this
    · rw [if_pos (by simp [h1])] at h
      simp only [Except.ok.injEq] at h
      subst h
      refine ⟨0, i, id, q, o, rfl, by simpa using h1, h2, ⟨h3, .inl h4⟩, by simpa using h5, h6, h7, ?_⟩
      intro j id' q' hj hl hd
      have h9 := h8 j id' q' hj hl hd.1
      rcases hd.2 with h10 | ⟨c, h10, _⟩
      · rw [h9] at h10; cases h10
      · simp at h10

/-- `MPI_Waitsome` returns at least one request; the indices are increasing and are those
of exactly the requests that have completed by then; each reported request's status is
written (at the position of the request) and its entry reset; the other entries are
unchanged. -/
theorem C22_waitsome_partial (t : Tab) (env : List (List Nat)) (l : List (Option Nat)) (r : Res)
    (hdistinct : (l.filterMap id).Nodup) (h : waitsome t env l = .ok r) :
    ∃ k, r.env = env.drop k ∧ r.indices ≠ [] ∧ r.indices.Pairwise (· < ·) ∧
      (∀ i, i ∈ r.indices ↔ ∃ id q, l[i]? = some (some id) ∧ Done t env k id q) ∧
      (∀ (i id : Nat) (q : Rq), l[i]? = some (some id) → Done t env k id q → ∃ o, r.reqs[i]? = some o ∧ Freed id q o) ∧
      (∀ i, i < l.length → i ∉ r.indices → r.reqs[i]? = l[i]?) ∧
      (∀ (i : Nat) (v : Int), (i, v) ∈ r.writes ↔ ∃ id q, l[i]? = some (some id) ∧ Done t env k id q ∧ v = q.status) := by
  -- the facts about one pass over the array, in terms of `Done`
  have key : ∀ (k : Nat) (t1 : Tab) (r1 : Res), t1 = afterK t env k → collect t1 0 l = .ok r1 →
      r1.indices.Pairwise (· < ·) ∧
      (∀ i, i ∈ r1.indices ↔ ∃ id q, l[i]? = some (some id) ∧ Done t env k id q) ∧
      (∀ (i id : Nat) (q : Rq), l[i]? = some (some id) → Done t env k id q → ∃ o, r1.reqs[i]? = some o ∧ Freed id q o) ∧
      (∀ i, i < l.length → i ∉ r1.indices → r1.reqs[i]? = l[i]?) ∧
      (∀ (i : Nat) (v : Int), (i, v) ∈ r1.writes ↔ ∃ id q, l[i]? = some (some id) ∧ Done t env k id q ∧ v = q.status) := by
    intro k t1 r1 ht1 hc
    subst ht1
    obtain ⟨e1, e2, e3, e4, e5, e6⟩ := collect_spec hdistinct hc
    refine ⟨e2, ?_, ?_, ?_, ?_⟩
    · intro i
      rw [e3]
      constructor
      · rintro ⟨j, id, q, e, h1, h2, h3⟩
        rw [Nat.zero_add] at e
        subst e
        obtain ⟨q', d, _⟩ := done_afterK h2 h3
        exact ⟨id, q', h1, d⟩
      · rintro ⟨id, q, h1, h2⟩
        exact ⟨i, id, _, by omega, h1, afterK_done h2, rfl⟩
    · intro i id q h1 h2
      obtain ⟨o, h3, h4⟩ := e4 i id _ h1 (afterK_done h2) rfl
      exact ⟨o, h3, h4⟩
    · intro i hi hn
      exact e5 i hi (by rw [Nat.zero_add]; exact hn)
    · intro i v
      rw [e6]
      constructor
      · rintro ⟨j, id, q, e, h1, h2, h3, h4⟩
        rw [Nat.zero_add] at e
        subst e
        obtain ⟨q', d, d2, _⟩ := done_afterK h2 h3
        exact ⟨id, q', h1, d, by rw [h4, d2]⟩
      · rintro ⟨id, q, h1, h2, h3⟩
        exact ⟨i, id, _, by omega, h1, afterK_done h2, rfl, h3⟩
  unfold waitsome at h
  cases hc : collect t 0 l with
  | error e => rw [hc] at h; simp at h
  | ok r0 =>
    rw [hc] at h
    simp only at h
    obtain k0 := key 0 t r0 (afterK_zero _ _).symm hc
    split at h
    · rename_i hne
      simp only [Except.ok.injEq] at h
      subst h
      exact ⟨0, rfl, hne, k0⟩
    · cases hg : progress (l.filterMap id) t env with
      | none => rw [hg] at h; simp at h
      | some p =>
        obtain ⟨t1, env1⟩ := p
        rw [hg] at h
        simp only at h
        obtain ⟨k, p1, p2, p3⟩ := progress_spec hg
        cases hc1 : collect t1 0 l with
        | error e => rw [hc1] at h; simp at h
        | ok r1 =>
          rw [hc1] at h
          simp only [Except.ok.injEq] at h
          subst h
          obtain k1 := key k t1 r1 p2 hc1
          refine ⟨k, p1, ?_, k1⟩
          obtain ⟨id, hid, hdn⟩ := List.any_eq_true.1 p3
          have hin := mem_filterMap_id.1 hid
          obtain ⟨i, hi, hi'⟩ := List.mem_iff_getElem.1 hin
          have hl : l[i]? = some (some id) := by simp [hi, hi']
          cases ht1 : t1 id with
          | none => simp [isDone, ht1] at hdn
          | some q1 =>
            have hq1 : q1.complete = true := by simpa [isDone, ht1] using hdn
            rw [p2] at ht1
            obtain ⟨q, d, _⟩ := done_afterK ht1 hq1
            intro hnil
            have := (k1.2.1 i).2 ⟨id, q, hl, d⟩
            simp only [] at hnil
            rw [hnil] at this
            simp at this

/-- A table with two requests: 10 already complete with status 7, 11 not, status 8, and a
persistent one, 12, status 9. -/
def demoTab : Tab := fun j =>
  if j = 10 then some ⟨true, false, 7⟩ else if j = 11 then some ⟨false, false, 8⟩
  else if j = 12 then some ⟨false, true, 9⟩ else Option.none

/-- A result in a form that can be compared. -/
def showRes (r : Except Stop Res) : List (Option Nat) × List (Nat × Int) × List Nat × Nat :=
  match r with | .ok r => (r.reqs, r.writes, r.indices, r.env.length) | .error _ => ([], [], [], 99)

example : showRes (waitall demoTab [[12], [11], [10]] 0 [some 11, Option.none, some 12]) =
    ([Option.none, Option.none, some 12], [(0, 8), (2, 9)], [], 1) := by decide

example : showRes (waitany demoTab [[12], [11]] [Option.none, some 11, some 12]) =
    ([Option.none, some 11, some 12], [(2, 9)], [2], 1) := by decide

example : showRes (waitsome demoTab [[12], [11]] [some 11, Option.none, some 10]) =
    ([some 11, Option.none, Option.none], [(2, 7)], [2], 2) := by decide

/-- `MPI_Waitsome` promises the status of the `k`-th reported request in position `k`; the
code writes it at the request's own position, so position 0 is left unwritten here. -/
theorem C22_waitsome_status_refuted :
    ∃ (t : Tab) (l : List (Option Nat)) (r : Res), (l.filterMap id).Nodup ∧ waitsome t [] l = .ok r ∧
      r.indices = [1] ∧ ∀ v, (0, v) ∉ r.writes := by
  refine ⟨demoTab, [some 11, some 10], _, by decide, rfl, by decide, ?_⟩
  intro v
  simp

/-- `MPI_Waitsome` on an array of null requests should return at once; it never returns. -/
theorem C22_waitsome_null_refuted (t : Tab) (env : List (List Nat)) (n : Nat) :
    waitsome t env (List.replicate n Option.none) = .error .blocked := by
  have h1 : ∀ i, ∃ r, collect t i (List.replicate n Option.none) = .ok r ∧ r.indices = [] := by
    induction n with
    | zero => intro i; exact ⟨_, rfl, rfl⟩
    | succ n ih =>
      intro i
      obtain ⟨r, h1, h2⟩ := ih (i + 1)
      exact ⟨{ r with reqs := Option.none :: r.reqs }, by simp only [List.replicate_succ, collect, h1], h2⟩
  obtain ⟨r, h2, h3⟩ := h1 0
  have h4 : (List.replicate n (Option.none : Option Nat)).filterMap id = [] := by
    apply List.eq_nil_iff_forall_not_mem.2
    intro j hj
    have := mem_filterMap_id.1 hj
    simp at this
  have h5 : ∀ (env : List (List Nat)) (t : Tab), progress [] t env = Option.none := by
    intro env
    induction env with
    | nil => intro t; rfl
    | cons c env ih => intro t; simp only [progress, List.any_nil]; exact ih _
  unfold waitsome
  rw [h2]
  simp only [h3, h4, h5]
  rfl

/-- `MPI_Testall` answers true exactly when every non-null request is complete. -/
theorem C22_testall_flag_partial (t : Tab) (l : List (Option Nat)) (i0 : Nat) (b : Bool) (r : Res)
    (hdistinct : (l.filterMap id).Nodup) (h : testall t i0 l = .ok (b, r)) :
    b = true ↔ ∀ id, some id ∈ l → ∃ q, t id = some q ∧ q.complete = true := by
  induction l generalizing t i0 b r with
  | nil =>
    simp only [testall, Except.ok.injEq, Prod.mk.injEq] at h
    simp [← h.1]
  | cons o l ih =>
    cases o with
    | none =>
      simp only [testall, test1] at h
      cases hc : testall t (i0 + 1) l with
      | error e => rw [hc] at h; simp at h
      | ok p =>
        obtain ⟨b1, r1⟩ := p
        rw [hc] at h
        simp only [Except.ok.injEq, Prod.mk.injEq] at h
        obtain ⟨rfl, _⟩ := h
        rw [ih t (i0 + 1) b1 r1 (by simpa using hdistinct) hc]
        simp
    | some id0 =>
      have hnd' : id0 ∉ l.filterMap id ∧ (l.filterMap id).Nodup := by simpa using hdistinct
      simp only [testall, test1] at h
      cases ht : t id0 with
      | none => rw [ht] at h; simp at h
      | some q0 =>
        rw [ht] at h
        simp only at h
        cases hcomp : q0.complete with
        | false =>
          rw [hcomp] at h
          simp only [Bool.false_eq_true, if_false, Except.ok.injEq, Prod.mk.injEq] at h
          obtain ⟨rfl, _⟩ := h
          simp only [Bool.false_eq_true, false_iff]
          intro hall
          obtain ⟨q, h1, h2⟩ := hall id0 (List.mem_cons_self ..)
          rw [ht] at h1
          simp only [Option.some.injEq] at h1
          subst h1
          rw [hcomp] at h2
          cases h2
        | true =>
          rw [hcomp] at h
          simp only [if_true] at h
          cases hc : testall (t.free id0) (i0 + 1) l with
          | error e => rw [hc] at h; simp at h
          | ok p =>
            obtain ⟨b1, r1⟩ := p
            rw [hc] at h
            simp only [Except.ok.injEq, Prod.mk.injEq] at h
            obtain ⟨rfl, _⟩ := h
            rw [ih (t.free id0) (i0 + 1) b1 r1 hnd'.2 hc]
            have hsame : ∀ j, some j ∈ l → t.free id0 j = t j := by
              intro j hj
              have : j ≠ id0 := by rintro rfl; exact hnd'.1 (mem_filterMap_id.2 hj)
              simp [Tab.free, this]
            constructor
            · intro hall j hj
              rcases List.mem_cons.1 hj with hj | hj
              · simp only [Option.some.injEq] at hj
                subst hj
                exact ⟨q0, ht, hcomp⟩
              · rw [← hsame j hj]; exact hall j hj
            · intro hall j hj
              rw [hsame j hj]; exact hall j (List.mem_cons_of_mem _ hj)

/-- When `MPI_Testall` answers false it should leave all requests alone; it has already
released the ones before the first incomplete one. -/
theorem C22_testall_refuted :
    ∃ (t : Tab) (l : List (Option Nat)) (r : Res), (l.filterMap id).Nodup ∧ testall t 0 l = .ok (false, r) ∧
      r.reqs ≠ l ∧ r.tab 10 = Option.none ∧ t 10 ≠ Option.none :=
  ⟨demoTab, [some 10, some 11], _, by decide, rfl, by decide, rfl, by decide⟩

/-- `MPI_Testany` and `MPI_Testsome` report null requests as completed ones. -/
theorem C22_test_null_refuted :
    (∃ (t : Tab) (l : List (Option Nat)) (r : Res), testany t 0 l = .ok (true, r) ∧ r.indices = [0] ∧ l[0]? = some Option.none ∧
      l[1]? = some (some 10) ∧ ∃ q, t 10 = some q ∧ q.complete = true) ∧
    (∃ (t : Tab) (l : List (Option Nat)) (r : Res), testsome t 0 l = .ok r ∧ r.indices = [0, 1] ∧ l[0]? = some Option.none) :=
  ⟨⟨demoTab, [Option.none, some 10], _, rfl, rfl, rfl, rfl, _, rfl, rfl⟩,
   ⟨demoTab, [Option.none, some 10], _, rfl, rfl, rfl⟩⟩

/-- `MPI_Test` destroys a completed persistent request, so that it cannot be restarted. -/
theorem C22_test_persistent_refuted :
    ∃ (t t' : Tab) (id : Nat) (q : Rq), t id = some q ∧ q.persistent = true ∧ q.complete = true ∧
      test1 t (some id) = .ok (true, t', Option.none, some q.status) ∧ t' id = Option.none ∧
      doWait t' [] (some id) = .error .unknown :=
  ⟨fun _ => some ⟨true, true, 3⟩, _, 0, ⟨true, true, 3⟩, rfl, rfl, rfl, rfl, rfl, rfl⟩

/-- `MPI_Testsome` without null requests reports exactly the completed ones, each with its
own status, and leaves the others in place. -/
theorem C22_testsome_partial (t : Tab) (l : List (Option Nat)) (i0 : Nat) (r : Res)
    (hdistinct : (l.filterMap id).Nodup) (h : testsome t i0 l = .ok r) :
    r.indices.Pairwise (· < ·) ∧
      (∀ j, j ∈ r.indices ↔ ∃ i o, j = i0 + i ∧ l[i]? = some o ∧ ∀ id, o = some id → ∃ q, t id = some q ∧ q.complete = true) ∧
      (∀ (j : Nat) (v : Int), (j, v) ∈ r.writes ↔ ∃ i id q, j = i0 + i ∧ l[i]? = some (some id) ∧ t id = some q ∧
        q.complete = true ∧ v = q.status) := by
  induction l generalizing t i0 r with
  | nil =>
    simp only [testsome, Except.ok.injEq] at h
    subst h
    simp
  | cons o l ih =>
    have key : ∀ {t1 : Tab} {r1 : Res}, testsome t1 (i0 + 1) l = .ok r1 → (l.filterMap id).Nodup →
        (∀ j, some j ∈ l → t1 j = t j) →
        r1.indices.Pairwise (· < ·) ∧ (∀ j ∈ r1.indices, i0 < j) ∧
        (∀ j, j ∈ r1.indices ↔ ∃ i o, j = i0 + (i + 1) ∧ l[i]? = some o ∧ ∀ id, o = some id → ∃ q, t id = some q ∧ q.complete = true) ∧
        (∀ (j : Nat) (v : Int), (j, v) ∈ r1.writes ↔ ∃ i id q, j = i0 + (i + 1) ∧ l[i]? = some (some id) ∧ t id = some q ∧
          q.complete = true ∧ v = q.status) := by
      intro t1 r1 hc hn hsame
      obtain ⟨e1, e2, e3⟩ := ih t1 (i0 + 1) r1 hn hc
      have e2' : ∀ j, j ∈ r1.indices ↔ ∃ i o, j = i0 + (i + 1) ∧ l[i]? = some o ∧ ∀ id, o = some id → ∃ q, t id = some q ∧ q.complete = true := by
        intro j
        rw [e2]
        constructor
        · rintro ⟨i, o, rfl, h1, h2⟩
          refine ⟨i, o, by omega, h1, ?_⟩
          rintro id rfl
          rw [← hsame id (List.mem_of_getElem? h1)]; exact h2 id rfl
        · rintro ⟨i, o, rfl, h1, h2⟩
          refine ⟨i, o, by omega, h1, ?_⟩
          rintro id rfl
          rw [hsame id (List.mem_of_getElem? h1)]; exact h2 id rfl
      refine ⟨e1, ?_, e2', ?_⟩
      · intro j hj
        obtain ⟨i, _, h1, _⟩ := (e2' j).1 hj
        omega
      · intro j v
        rw [e3]
        constructor
        · rintro ⟨i, id, q, rfl, h1, h2, h3⟩
          exact ⟨i, id, q, by omega, h1, by rw [← hsame id (List.mem_of_getElem? h1)]; exact h2, h3⟩
        · rintro ⟨i, id, q, rfl, h1, h2, h3⟩
          exact ⟨i, id, q, by omega, h1, by rw [hsame id (List.mem_of_getElem? h1)]; exact h2, h3⟩
    cases o with
    | none =>
      simp only [testsome, test1] at h
      cases hc : testsome t (i0 + 1) l with
      | error e => rw [hc] at h; simp at h
      | ok r1 =>
        rw [hc] at h
        simp only [Except.ok.injEq] at h
        subst h
        obtain ⟨e1, e2, e3, e4⟩ := key hc (by simpa using hdistinct) (fun _ _ => rfl)
        refine ⟨List.pairwise_cons.2 ⟨e2, e1⟩, ?_, ?_⟩
        · intro j
          rw [List.mem_cons, e3]
          constructor
          · rintro (rfl | ⟨i, o, h1, h2, h3⟩)
            · exact ⟨0, Option.none, by omega, by simp, by simp⟩
            · exact ⟨i + 1, o, h1, by simpa using h2, h3⟩
          · rintro ⟨i, o, h1, h2, h3⟩
            cases i with
            | zero => exact .inl (by omega)
            | succ i => exact .inr ⟨i, o, h1, by simpa using h2, h3⟩
        · intro j v
          simp only [Option.map_none, Option.toList_none, List.nil_append]
          rw [e4]
          constructor
          · rintro ⟨i, id, q, h1, h2, h3⟩; exact ⟨i + 1, id, q, h1, by simpa using h2, h3⟩
          · rintro ⟨i, id, q, h1, h2, h3⟩
            cases i with
            | zero => simp at h2
            | succ i => exact ⟨i, id, q, h1, by simpa using h2, h3⟩
    | some id0 =>
      have hnd' : id0 ∉ l.filterMap id ∧ (l.filterMap id).Nodup := by simpa using hdistinct
      simp only [testsome, test1] at h
      cases ht : t id0 with
      | none => rw [ht] at h; simp at h
      | some q0 =>
        rw [ht] at h
        simp only at h
        cases hcomp : q0.complete with
        | false =>
          rw [hcomp] at h
          simp only [Bool.false_eq_true, if_false] at h
          cases hc : testsome t (i0 + 1) l with
          | error e => rw [hc] at h; simp at h
          | ok r1 =>
            rw [hc] at h
            simp only [Except.ok.injEq] at h
            subst h
            obtain ⟨e1, e2, e3, e4⟩ := key hc hnd'.2 (fun _ _ => rfl)
            have hno : ∀ q, t id0 = some q → q.complete = true → False := by
              intro q h1 h2
              rw [ht] at h1
              simp only [Option.some.injEq] at h1
              subst h1
              rw [hcomp] at h2; cases h2
            refine ⟨e1, ?_, ?_⟩
            · intro j
              rw [e3]
              constructor
              · rintro ⟨i, o, h1, h2, h3⟩; exact ⟨i + 1, o, h1, by simpa using h2, h3⟩
              · rintro ⟨i, o, h1, h2, h3⟩
                cases i with
                | zero =>
                  simp at h2
                  subst h2
                  obtain ⟨q, h4, h5⟩ := h3 id0 rfl
                  exact (hno q h4 h5).elim
                | succ i => exact ⟨i, o, h1, by simpa using h2, h3⟩
            · intro j v
              rw [e4]
              constructor
              · rintro ⟨i, id, q, h1, h2, h3⟩; exact ⟨i + 1, id, q, h1, by simpa using h2, h3⟩
              · rintro ⟨i, id, q, h1, h2, h3, h4, h5⟩
                cases i with
                | zero => simp at h2; subst h2; exact (hno q h3 h4).elim
                | succ i => exact ⟨i, id, q, h1, by simpa using h2, h3, h4, h5⟩
        | true =>
          rw [hcomp] at h
          simp only [if_true] at h
          cases hc : testsome (t.free id0) (i0 + 1) l with
          | error e => rw [hc] at h; simp at h
          | ok r1 =>
            rw [hc] at h
            simp only [Except.ok.injEq] at h
            subst h
            obtain ⟨e1, e2, e3, e4⟩ := key hc hnd'.2 (by
              intro j hj
              have : j ≠ id0 := by rintro rfl; exact hnd'.1 (mem_filterMap_id.2 hj)
              simp [Tab.free, this])
            refine ⟨List.pairwise_cons.2 ⟨e2, e1⟩, ?_, ?_⟩
            · intro j
              rw [List.mem_cons, e3]
              constructor
              · rintro (rfl | ⟨i, o, h1, h2, h3⟩)
                · refine ⟨0, some id0, by omega, by simp, ?_⟩
                  intro id hid
                  simp only [Option.some.injEq] at hid
                  subst hid
                  exact ⟨q0, ht, hcomp⟩
                · exact ⟨i + 1, o, h1, by simpa using h2, h3⟩
              · rintro ⟨i, o, h1, h2, h3⟩
                cases i with
                | zero => exact .inl (by omega)
                | succ i => exact .inr ⟨i, o, h1, by simpa using h2, h3⟩
            · intro j v
              simp only [Option.map_some, Option.toList_some, List.singleton_append, List.mem_cons, Prod.mk.injEq]
              rw [e4]
              constructor
              · rintro (⟨rfl, rfl⟩ | ⟨i, id, q, h1, h2, h3⟩)
                · exact ⟨0, id0, q0, by omega, by simp, ht, hcomp, rfl⟩
                · exact ⟨i + 1, id, q, h1, by simpa using h2, h3⟩
              · rintro ⟨i, id, q, h1, h2, h3, h4, h5⟩
                cases i with
                | zero =>
                  simp at h2
                  subst h2
                  have : q = q0 := by rw [ht] at h3; simpa using h3.symm
                  subst this
                  exact .inl ⟨by omega, h5⟩
                | succ i => exact .inr ⟨i, id, q, h1, by simpa using h2, h3, h4, h5⟩

example : showRes (testsome demoTab 0 [some 11, some 10]) = ([some 11, Option.none], [(1, 7)], [1], 0) := by decide

end SST.Mpi
