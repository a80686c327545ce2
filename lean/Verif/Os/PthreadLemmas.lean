import Verif.Os.PthreadSpec
set_option autoImplicit false

/-!
# Lemmas about threads, keys and affinities
-/

namespace Verif.Os.Pth


theorem look_put (l : List (Nat × Nat)) (k v j : Nat) : look (put l k v) j = if k = j then some v else look (del l k) j := by
  rfl

theorem look_del (l : List (Nat × Nat)) (k j : Nat) : look (del l k) j = if k = j then none else look l j := by
  induction l with
  | nil => simp [del, look]
  | cons p r ih =>
    obtain ⟨a, b⟩ := p
    simp only [del, List.filter_cons] at ih ⊢
    by_cases h : a = k
    · subst h
      simp only [ne_eq, not_true_eq_false, decide_false, Bool.false_eq_true, ite_false, ih, look]
      by_cases h2 : a = j <;> simp [h2]
    · simp only [ne_eq, h, not_false_eq_true, decide_true, ite_true, look, ih]
      by_cases h2 : a = j
      · subst h2; simp [Ne.symm h]
      · simp [h2]

theorem look_put' (l : List (Nat × Nat)) (k v j : Nat) : look (put l k v) j = if k = j then some v else look l j := by
  rw [look_put, look_del]; split <;> simp_all

theorem upd_same {α : Type} (f : Nat → α) (i : Nat) (a : α) : upd f i a i = a := by simp [upd]

theorem upd_ne {α : Type} (f : Nat → α) {i j : Nat} (a : α) (h : j ≠ i) : upd f i a j = f j := by simp [upd, h]

/-- The table of a process after a join. -/
def without (subs : Nat → List (Nat × Nat)) (p : Nat) (via : Option Nat) : Nat → List (Nat × Nat) :=
  match via with
  | some i => upd subs p (del (subs p) i)
  | none => subs

theorem afterJoin_some {s s' : St} {p k : Nat} {via : Option Nat} (h : afterJoin s p k via = some s') :
    (s.thr k).freed = false ∧
    s' = { s with thr := upd s.thr k { s.thr k with freed := true }, running := del s.running (s.thr k).rank, subs := without s.subs p via } := by
  unfold afterJoin free at h
  cases hf : (s.thr k).freed with
  | true => simp [hf] at h
  | false =>
    simp only [hf, Bool.false_eq_true, ite_false, Option.map_some, Option.some.injEq] at h
    refine ⟨rfl, ?_⟩
    subst h
    cases via <;> rfl

theorem wake_some {s s' : St} {k : Nat} {ws : List (Nat × Nat × Option Nat)} (h : wake s k ws = some s') :
    (ws = [] ∧ s' = s) ∨ ∃ c x via, ws = [(c, x, via)] ∧ afterJoin s (s.thr c).app k via = some s' := by
  match ws with
  | [] => left; simp [wake] at h; exact ⟨rfl, h.symm⟩
  | [(c, x, via)] =>
    right
    refine ⟨c, x, via, rfl, ?_⟩
    unfold wake at h
    cases ha : afterJoin s (s.thr c).app k via with
    | none => simp [ha] at h
    | some s1 => simp [ha, wake] at h; rw [h]
  | (c, x, via) :: (c2, x2, via2) :: r =>
    exfalso
    unfold wake at h
    cases ha : afterJoin s (s.thr c).app k via with
    | none => simp [ha] at h
    | some s1 =>
      simp only [ha] at h
      have h1 := (afterJoin_some ha).2
      unfold wake at h
      cases hb : afterJoin s1 (s1.thr c2).app k via2 with
      | none => simp [hb] at h
      | some s2 =>
        have h2 := (afterJoin_some hb).1
        rw [h1] at h2
        simp [upd] at h2

/-- Two objects that differ at most in whether they have ended, and were deleted. -/
structure Like (t t' : Thr) : Prop where
  app : t'.app = t.app
  rank : t'.rank = t.rank
  id : t'.id = t.id
  started : t'.started = t.started
  detached : t'.detached = t.detached
  std : t'.std = t.std
  tls : t'.tls = t.tls
  mask : t'.mask = t.mask
  done : t.done = true → t'.done = true
  freed : t.freed = true → t'.freed = true

theorem Like.refl (t : Thr) : Like t t := ⟨rfl, rfl, rfl, rfl, rfl, rfl, rfl, rfl, fun x => x, fun x => x⟩

theorem Like.trans {a b c : Thr} (h : Like a b) (g : Like b c) : Like a c :=
  ⟨g.app.trans h.app, g.rank.trans h.rank, g.id.trans h.id, g.started.trans h.started, g.detached.trans h.detached, g.std.trans h.std, g.tls.trans h.tls, g.mask.trans h.mask, fun x => g.done (h.done x), fun x => g.freed (h.freed x)⟩

/-- The parts of a state that joins and ends leave alone. -/
structure Calm (s s' : St) : Prop where
  cnt : s'.cnt = s.cnt
  n : s'.n = s.n
  nextKey : s'.nextKey = s.nextKey
  starts : s'.starts = s.starts
  thr : ∀ j, Like (s.thr j) (s'.thr j)

theorem Calm.trans {a b c : St} (h : Calm a b) (g : Calm b c) : Calm a c :=
  ⟨g.cnt.trans h.cnt, g.n.trans h.n, g.nextKey.trans h.nextKey, g.starts.trans h.starts, fun j => (h.thr j).trans (g.thr j)⟩

theorem like_freed (t : Thr) : Like t { t with freed := true } := ⟨rfl, rfl, rfl, rfl, rfl, rfl, rfl, rfl, fun x => x, fun _ => rfl⟩

theorem like_done (t : Thr) : Like t { t with done := true } := ⟨rfl, rfl, rfl, rfl, rfl, rfl, rfl, rfl, fun _ => rfl, fun x => x⟩

theorem like_upd {f : Nat → Thr} {i : Nat} {t : Thr} (h : Like (f i) t) (j : Nat) : Like (f j) (upd f i t j) := by
  unfold upd; split
  · next e => subst e; exact h
  · exact Like.refl _

theorem calm_afterJoin {s s' : St} {p k : Nat} {via : Option Nat} (h : afterJoin s p k via = some s') : Calm s s' := by
  obtain ⟨_, rfl⟩ := afterJoin_some h
  exact ⟨rfl, rfl, rfl, rfl, fun j => like_upd (like_freed _) j⟩

theorem calm_wake {s s' : St} {k : Nat} {ws : List (Nat × Nat × Option Nat)} (h : wake s k ws = some s') : Calm s s' := by
  rcases wake_some h with ⟨_, rfl⟩ | ⟨c, x, via, _, ha⟩
  · exact ⟨rfl, rfl, rfl, rfl, fun j => Like.refl _⟩
  · exact calm_afterJoin ha

theorem calm_refl (s : St) : Calm s s := ⟨rfl, rfl, rfl, rfl, fun _ => Like.refl _⟩

theorem calm_join {s s' : St} {c k : Nat} {via : Option Nat} {o : Out} (h : joinThread s c k via = (s', o)) : Calm s s' := by
  unfold joinThread at h
  split at h
  · cases h; exact ⟨rfl, rfl, rfl, rfl, fun _ => Like.refl _⟩
  · split at h
    · split at h
      · next s1 hs => cases h; exact calm_afterJoin hs
      · cases h; exact ⟨rfl, rfl, rfl, rfl, fun _ => Like.refl _⟩
    · cases h; exact ⟨rfl, rfl, rfl, rfl, fun _ => Like.refl _⟩

theorem calm_finish {s s' : St} {c : Nat} {o : Out} (h : finish s c = (s', o)) : Calm s s' := by
  unfold finish at h
  simp only at h
  split at h
  · cases h; exact ⟨rfl, rfl, rfl, rfl, fun _ => Like.refl _⟩
  · next s4 hw =>
    have h1 : Calm s s4 := by
      refine Calm.trans ?_ (calm_wake hw)
      constructor <;> try (split <;> rfl)
      intro j
      split <;> exact like_upd (like_done _) j
    split at h
    · split at h
      · next s5 hf =>
        cases h
        refine h1.trans ?_
        unfold free at hf
        split at hf
        · cases hf
        · cases hf; exact ⟨rfl, rfl, rfl, rfl, fun j => like_upd (like_freed _) j⟩
      · cases h; exact ⟨rfl, rfl, rfl, rfl, fun _ => Like.refl _⟩
    · cases h; exact h1

/-- The thread that acts. -/
def actor : Act → Option Nat
  | .launch _ | .elsewhere | .start => none
  | .create c _ | .std c | .self c | .join c _ | .joinStd c _ | .detach c _ | .finish c _ | .key c _ | .keyDel c _
  | .set c _ _ | .get c _ | .schedSet c _ | .schedGet c | .affSet c _ _ | .affGet c _ => some c

theorem actor_runs {s s' : St} {a : Act} {o : Out} {c : Nat} (h : step s a = some (s', o)) (hc : actor a = some c) : s.runs c = true := by
  unfold step at h
  split at h
  · cases h
  · cases a <;> simp only [actor, Option.some.injEq, reduceCtorEq] at hc <;> subst hc <;> simp only at h
    all_goals (split at h <;> first | (next hr => first | exact hr | (simp only [Bool.and_eq_true] at hr; exact hr.1)) | cases h)

theorem runs_lt {s : St} {c : Nat} (h : s.runs c = true) : c < s.n := by
  unfold St.runs at h; simp only [Bool.and_eq_true, decide_eq_true_eq] at h; exact h.1.1.1.1

/-- What an action can change. -/
structure Frame (s : St) (a : Act) (s' : St) : Prop where
  n : s'.n = s.n + (match a with | .launch _ | .create _ _ | .std _ => 1 | _ => 0)
  app : ∀ j, j < s.n → (s'.thr j).app = (s.thr j).app
  rank : ∀ j, j < s.n → (s'.thr j).rank = (s.thr j).rank
  id : ∀ j, j < s.n → (s.thr j).id ≠ noId → (s'.thr j).id = (s.thr j).id
  tls : ∀ j, j < s.n → (s'.thr j).tls = (match a with | .set c k v => if c = j then put (s.thr j).tls k v else (s.thr j).tls | _ => (s.thr j).tls)
  mask : ∀ j, j < s.n → (s'.thr j).mask = (match a with | .schedSet c m => if c = j then m else (s.thr j).mask | .affSet _ _ _ => (s'.thr j).mask | _ => (s.thr j).mask)
  done : ∀ j, j < s.n → (s.thr j).done = true → (s'.thr j).done = true
  freed : ∀ j, j < s.n → (s.thr j).freed = true → (s'.thr j).freed = true

/-- Actions that neither make a thread nor store a value or a mask. -/
def plain : Act → Bool
  | .launch _ | .create _ _ | .std _ | .set _ _ _ | .schedSet _ _ => false
  | _ => true

theorem calm_frame {s s' : St} (a : Act) (h : Calm s s') (ha : plain a = true) : Frame s a s' := by
  refine ⟨?_, fun j _ => (h.thr j).app, fun j _ => (h.thr j).rank, fun j _ _ => (h.thr j).id, fun j _ => ?_, fun j _ => ?_, fun j _ => (h.thr j).done, fun j _ => (h.thr j).freed⟩
  · rw [h.n]; cases a <;> first | rfl | exact absurd ha Bool.false_ne_true
  · rw [(h.thr j).tls]; cases a <;> first | rfl | exact absurd ha Bool.false_ne_true
  · cases a <;> first | exact (h.thr j).mask | rfl | exact absurd ha Bool.false_ne_true

theorem frame {s s' : St} {a : Act} {o : Out} (h : step s a = some (s', o)) : Frame s a s' := by
  have hr := @actor_runs s s' a o
  unfold step at h
  split at h
  · cases h
  cases a with
  | launch r =>
    cases h
    refine ⟨rfl, ?_, ?_, ?_, ?_, ?_, ?_, ?_⟩ <;> intro j hj <;> simp [launch, St.add, St.bump, upd, Nat.ne_of_lt hj]
  | elsewhere => cases h; exact ⟨rfl, fun _ _ => rfl, fun _ _ => rfl, fun _ _ _ => rfl, fun _ _ => rfl, fun _ _ => rfl, fun _ _ x => x, fun _ _ x => x⟩
  | create c attr =>
    simp only at h
    split at h
    · cases h
      refine ⟨rfl, ?_, ?_, ?_, ?_, ?_, ?_, ?_⟩ <;> intro j hj <;> simp [create, St.add, St.bump, upd, Nat.ne_of_lt hj]
    · cases h
  | std c =>
    simp only at h
    split at h
    · cases h
      refine ⟨rfl, ?_, ?_, ?_, ?_, ?_, ?_, ?_⟩ <;> intro j hj <;> simp [std, St.add, upd, Nat.ne_of_lt hj]
    · cases h
  | start =>
    simp only at h
    split at h
    · cases h
    · cases h
      unfold begin_
      simp only
      split
      · next he =>
        refine ⟨rfl, ?_, ?_, ?_, ?_, ?_, ?_, ?_⟩ <;> intro j hj <;> simp only [St.bump, upd] <;> split <;> simp_all
      · refine ⟨rfl, ?_, ?_, ?_, ?_, ?_, ?_, ?_⟩ <;> intro j hj <;> simp only [upd] <;> split <;> simp_all
  | self c => simp only at h; split at h <;> cases h; exact calm_frame _ (calm_refl _) rfl
  | join c i =>
    simp only at h
    split at h
    · split at h
      · cases h; exact calm_frame _ ⟨rfl, rfl, rfl, rfl, fun _ => Like.refl _⟩ rfl
      · simp only [Option.some.injEq] at h; exact calm_frame _ (calm_join h) rfl
    · cases h
  | joinStd c k =>
    simp only at h
    split at h
    · simp only [Option.some.injEq] at h; exact calm_frame _ (calm_join h) rfl
    · cases h
  | detach c i =>
    simp only at h
    split at h
    · split at h
      · cases h; exact calm_frame _ ⟨rfl, rfl, rfl, rfl, fun _ => Like.refl _⟩ rfl
      · split at h
        · cases h; exact calm_frame _ ⟨rfl, rfl, rfl, rfl, fun _ => Like.refl _⟩ rfl
        · cases h
          refine ⟨rfl, ?_, ?_, ?_, ?_, ?_, ?_, ?_⟩ <;> intro j hj <;> simp only [upd] <;> split <;> simp_all
    · cases h
  | finish c r =>
    simp only at h
    split at h
    · simp only [Option.some.injEq] at h; exact calm_frame _ (calm_finish h) rfl
    · cases h
  | key c d => simp only at h; split at h <;> cases h; exact ⟨rfl, fun _ _ => rfl, fun _ _ => rfl, fun _ _ _ => rfl, fun _ _ => rfl, fun _ _ => rfl, fun _ _ x => x, fun _ _ x => x⟩
  | keyDel c k => simp only at h; split at h <;> cases h; exact calm_frame _ (calm_refl _) rfl
  | set c k v =>
    simp only at h
    split at h <;> cases h
    refine ⟨rfl, ?_, ?_, ?_, ?_, ?_, ?_, ?_⟩ <;> intro j hj <;> simp only [upd] <;> split <;> simp_all
    intro e; exact absurd e.symm (by assumption)
  | get c k => simp only at h; split at h <;> cases h; exact calm_frame _ (calm_refl _) rfl
  | schedSet c m =>
    simp only at h
    split at h <;> cases h
    refine ⟨rfl, ?_, ?_, ?_, ?_, ?_, ?_, ?_⟩ <;> intro j hj <;> simp only [upd] <;> split <;> simp_all
    intro e; exact absurd e.symm (by assumption)
  | schedGet c => simp only at h; split at h <;> cases h; exact calm_frame _ (calm_refl _) rfl
  | affSet c i m =>
    simp only at h
    split at h
    · split at h
      · cases h; exact calm_frame _ (calm_refl _) rfl
      · split at h
        · cases h; exact calm_frame _ ⟨rfl, rfl, rfl, rfl, fun _ => Like.refl _⟩ rfl
        · cases h
          refine ⟨rfl, ?_, ?_, ?_, ?_, ?_, ?_, ?_⟩ <;> intro j hj <;> simp only [upd] <;> split <;> simp_all
    · cases h
  | affGet c i =>
    simp only at h
    split at h
    · split at h
      · cases h; exact calm_frame _ (calm_refl _) rfl
      · split at h <;> cases h
        · exact calm_frame _ ⟨rfl, rfl, rfl, rfl, fun _ => Like.refl _⟩ rfl
        · exact calm_frame _ (calm_refl _) rfl
    · cases h

end Verif.Os.Pth
