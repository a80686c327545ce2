import Verif.Os.PthreadInv
set_option autoImplicit false

/-!
# What programs may expect of threads, keys and affinities

Theorems about all histories (`Run s h`: `h` is the list of what happened and of what could be seen)
in the vocabulary of PthreadSpec.lean, and histories in which the code does what no program expects.
-/

namespace Verif.Os.Pth

/-! ## Running programs -/

/-- A list of actions, one after the other. -/
def exec (s : St) : List Act → Option (St × List (Act × Out))
  | [] => some (s, [])
  | a :: r =>
    match step s a with
    | none => none
    | some (s', o) =>
      match exec s' r with
      | none => none
      | some (s'', h) => some (s'', (a, o) :: h)

theorem exec_run {s s' : St} {h0 h : List (Act × Out)} {as : List Act} (r : Run s h0) (he : exec s as = some (s', h)) : Run s' (h0 ++ h) := by
  induction as generalizing s h0 h with
  | nil => simp only [exec, Option.some.injEq, Prod.mk.injEq] at he; obtain ⟨rfl, rfl⟩ := he; simpa using r
  | cons a r' ih =>
    simp only [exec] at he
    cases hs : step s a with
    | none => simp [hs] at he
    | some p =>
      obtain ⟨s1, o⟩ := p
      simp only [hs] at he
      cases hx : exec s1 r' with
      | none => simp [hx] at he
      | some q =>
        obtain ⟨s2, h2⟩ := q
        simp only [hx, Option.some.injEq, Prod.mk.injEq] at he
        obtain ⟨rfl, rfl⟩ := he
        have := ih (r.step hs) hx
        simpa using this

/-- What could be seen of a program. -/
def outs (as : List Act) : Option (List Out) := (exec St.init as).map fun p => p.2.map (·.2)

theorem outs_run {as : List Act} {os : List Out} (h : outs as = some os) : ∃ s hh, Run s hh ∧ hh.map (·.2) = os ∧ exec St.init as = some (s, hh) := by
  unfold outs at h
  cases he : exec St.init as with
  | none => simp [he] at h
  | some p =>
    obtain ⟨s, hh⟩ := p
    simp only [he, Option.map_some, Option.some.injEq] at h
    have := exec_run Run.init he
    exact ⟨s, hh, by simpa using this, h, rfl⟩

/-! ## Numbers of threads -/

/-- While fewer than `2^32` threads have been made in the simulation: the number that
`pthread_create` gives is the one that the new thread, and no other, gets from `pthread_self`; no two
threads get the same number. -/
theorem C126_numbers {s : St} {h : List (Act × Out)} (r : Run s h) (hb : births h < 2 ^ 32)
    {c k i : Nat} {attr : Option (Bool × BitVec 64)} (hc : (Act.create c attr, Out.made k i) ∈ h) :
    (∀ c' j, (Act.self c', Out.num j) ∈ h → (i = j ↔ k = c')) ∧
    (∀ c' k' i' attr', (Act.create c' attr', Out.made k' i') ∈ h → (i = i' ↔ k = k')) := by
  have hb' : births h ≤ noId := by unfold noId; omega
  have B := base r hb'
  have S := seen r hb'
  obtain ⟨h1, _, h2, h3, _⟩ := S.made k i c ⟨attr, hc⟩
  constructor
  · intro c' j hs
    obtain ⟨g1, g2, g3⟩ := S.self c' j hs
    constructor
    · intro e; exact B.dist k c' h1 g1 (by rw [h2]; exact h3) (by rw [h2, g2]; exact e)
    · intro e; subst e; rw [← h2, ← g2]
  · intro c' k' i' attr' hc'
    obtain ⟨g1, _, g2, g3, _⟩ := S.made k' i' c' ⟨attr', hc'⟩
    constructor
    · intro e; exact B.dist k k' h1 g1 (by rw [h2]; exact h3) (by rw [h2, g2]; exact e)
    · intro e; subst e; rw [← h2, ← g2]

/-- Two threads of one process and one on another node. -/
example : outs [.launch 0, .elsewhere, .create 0 none, .create 0 none, .start, .start, .self 1, .self 2, .self 0]
    = some [.made 0 0, .ok, .made 1 2, .made 2 3, .ok, .ok, .num 2, .num 3, .num 0] := by decide

/-- `std::thread`: two threads that run at the same time have the same `get_id`, which is the number
of neither. -/
theorem C126_std_id_refuted : outs [.launch 0, .std 0, .std 0, .start, .start, .self 1, .self 2]
    = some [.made 0 0, .made 1 noId, .made 2 noId, .ok, .ok, .num 1, .num 2] ∧ noId ≠ 1 ∧ noId ≠ 2 := by decide

/-! ## Joins -/

/-- A thread that was created and neither joined nor detached is found under its number. -/
theorem keep {s : St} {h : List (Act × Out)} (r : Run s h) (hb : births h ≤ noId) :
    ∀ k i c, Made h k i c → weight k h = 0 → look (s.subs (s.thr k).app) i = some k := by
  induction r with
  | init => intro k i c ⟨_, m⟩; cases m
  | @step s s' h a o r hst ih =>
    have hb' := births_le hb
    have i := ih hb'
    have B := base r hb'
    have S := seen r hb'
    have T := tabs r hb'
    have E := endsInv r hb'
    have F := frame hst
    intro k j c hm hw
    have hw0 : weight k h = 0 := by have := weight_mono k h (a, o); omega
    by_cases hold : Made h k j c
    · obtain ⟨h1, h2, h3, h4, h5, h6⟩ := S.made k j c hold
      have hl := i k j c hold hw0
      rw [F.app k h1]
      by_cases hq : apart a = true
      · rw [(tabs_same hst hq).1]; exact hl
      · cases a <;> simp only [apart, not_true_eq_false] at hq
        case create c' attr =>
          obtain ⟨he, _⟩ := create_step hst
          rw [he]
          simp only [create, St.add, St.bump, upd]
          split
          · next e =>
            rw [look_put', ← e]
            have := B.idLt k h1 (by rw [h3]; exact h4)
            rw [if_neg (by omega)]; exact hl
          · exact hl
        case join c' j' =>
          have hr := actor_runs hst rfl
          unfold step at hst
          split at hst
          · cases hst
          · simp only [hr, if_true] at hst
            split at hst
            · cases hst; exact hl
            · next k0 hk0 =>
              simp only [Option.some.injEq] at hst
              have hnm := (join_names hst j').1.1
              have hne : k ≠ k0 := by
                intro e; subst e; have := weight_names h hnm; omega
              rcases join_spec hst with ⟨_, _, rfl⟩ | ⟨_, _, _, _, _, _, _, hs⟩ | ⟨_, _, _, rfl⟩
              · exact hl
              · rw [hs]
                simp only [without, upd]
                split
                · next e =>
                  rw [look_del]
                  split
                  · next e2 => subst e2; rw [e, hk0] at hl; cases hl; exact absurd rfl hne
                  · rw [← e]; exact hl
                · exact hl
              · exact hl
        case joinStd c' k0 =>
          unfold step at hst
          split at hst
          · cases hst
          · simp only at hst
            split at hst
            · simp only [Option.some.injEq] at hst
              rcases join_spec hst with ⟨_, _, rfl⟩ | ⟨_, _, _, _, _, _, _, hs⟩ | ⟨_, _, _, rfl⟩
              · exact hl
              · rw [hs]; exact hl
              · exact hl
            · cases hst
        case finish c' rv =>
          have hr := actor_runs hst rfl
          have hc' := runs_lt hr
          have hfc : (s.thr c').freed = false := by
            cases hf : (s.thr c').freed with
            | false => rfl
            | true => have := (E.fr c' hc' hf).1; rw [runs_done hr] at this; cases this
          unfold step at hst
          split at hst
          · cases hst
          · simp only at hst
            split at hst
            · simp only [Option.some.injEq] at hst
              rcases finish_spec hst hfc with ⟨_, rfl, _⟩ | ⟨_, _, _, _, _, hs⟩
              · exact hl
              · rcases hs _ _ _ hl with g | ⟨g1, g2, g3, g4⟩ | ⟨d, g1, g2⟩
                · exact g
                · exfalso
                  have e : k = c' := B.dist k c' h1 hc' (by rw [h3]; exact h4) (by rw [h3]; exact g2)
                  subst e
                  have := E.wt k h1 h6
                  rw [g3] at this; simp at this; omega
                · exfalso
                  obtain ⟨_, w2, w3, w4⟩ := T.wait d c' (some j) g1
                  obtain ⟨_, c0, w5⟩ := w4 j rfl
                  obtain ⟨_, _, w6, _⟩ := S.made _ _ _ w5
                  have e : k = c' := B.dist k c' h1 w2 (by rw [h3]; exact h4) (by rw [h3]; exact w6.symm)
                  subst e
                  have := E.wt k h1 h6
                  have hpos : 1 ≤ s.waitsFor k := by
                    unfold St.waitsFor
                    apply List.length_pos_of_mem (a := (d, k, some j))
                    simp [g1]
                  omega
            · cases hst
    · obtain ⟨attr, m⟩ := hm
      rcases List.mem_append.mp m with m | m
      · exact absurd ⟨attr, m⟩ hold
      · simp only [List.mem_singleton] at m
        cases m
        obtain ⟨he, ho⟩ := create_step hst
        cases ho
        rw [he]
        simp [create, St.add, St.bump, upd, look_put']

/-- A running thread may join a thread of its process, by the number that `pthread_create` gave, if
that thread was not created detached and nobody has joined or detached it: the join returns at once
if it has ended, and otherwise waits for it. -/
theorem C126_join_partial {s : St} {h : List (Act × Out)} (r : Run s h) (hb : births h < 2 ^ 32) (hh : s.halted = false)
    {c0 k i : Nat} {attr : Option (Bool × BitVec 64)} (hc : (Act.create c0 attr, Out.made k i) ∈ h)
    (hfree : ∀ e ∈ h, names k e = false ∧ bornDetached k e = false) {c : Nat} (hr : s.runs c = true) (hp : (s.thr c).app = (s.thr c0).app) :
    ∃ s', step s (.join c i) = some (s', if (∃ e ∈ h, ends k e = true) then .joined k none else .blocked k) := by
  have hb' : births h ≤ noId := by unfold noId; omega
  have S := seen r hb'
  have E := endsInv r hb'
  obtain ⟨h1, h2, h3, h4, h5, h6⟩ := S.made k i c0 ⟨attr, hc⟩
  have hw : weight k h = 0 := by
    unfold weight
    have g1 : h.filter (names k) = [] := by rw [List.filter_eq_nil_iff]; intro e he; simp [(hfree e he).1]
    have g2 : h.filter (bornDetached k) = [] := by rw [List.filter_eq_nil_iff]; intro e he; simp [(hfree e he).2]
    rw [g1, g2]; rfl
  have hl := keep r hb' k i c0 ⟨attr, hc⟩ hw
  rw [h5, ← hp] at hl
  have hf : (s.thr k).freed = false := by
    cases hf : (s.thr k).freed with
    | false => rfl
    | true => have := (E.fr k h1 hf).2 h6; omega
  unfold step
  simp only [hh, Bool.false_eq_true, if_false, hr, if_true, hl]
  cases hj : joinThread s c k (some i) with
  | mk s' o =>
    refine ⟨s', ?_⟩
    congr 2
    rcases join_spec hj with ⟨g, _⟩ | ⟨_, g, ho, _⟩ | ⟨_, g, ho, _⟩
    · rw [hf] at g; cases g
    · rw [if_pos ((E.done k h1).mp g)]; exact ho
    · rw [if_neg]
      · exact ho
      · intro hx; rw [(E.done k h1).mpr hx] at g; cases g

/-- A join that waits and returns when the thread ends; a join of a thread that has ended. -/
example : outs [.launch 0, .create 0 none, .create 0 none, .start, .start, .join 0 1, .finish 1 7, .finish 2 8, .join 0 2]
    = some [.made 0 0, .made 1 1, .made 2 2, .ok, .ok, .blocked 1, .ended [0] [], .ended [] [], .joined 2 none] := by decide

theorem actor_lt {s : St} {h : List (Act × Out)} (r : Run s h) {a : Act} {o : Out} {c : Nat} (hm : (a, o) ∈ h) (ha : actor a = some c) : c < s.n := by
  induction r with
  | init => cases hm
  | @step s1 s2 h1 a1 o1 r1 hst1 ih1 =>
    have := frame_n hst1
    rcases List.mem_append.mp hm with hm | hm
    · have := ih1 hm; omega
    · simp only [List.mem_singleton] at hm; cases hm
      have := runs_lt (actor_runs hst1 ha); omega

/-- A join by number is a join of the thread that was created under this number in the process of the
caller. -/
theorem C126_join_right {s : St} {h : List (Act × Out)} (r : Run s h) (hb : births h < 2 ^ 32) {c i k : Nat} {o : Out}
    (hj : (Act.join c i, o) ∈ h) (ho : names k (Act.join c i, o) = true) :
    ∃ c0 attr, (Act.create c0 attr, Out.made k i) ∈ h ∧ (s.thr c0).app = (s.thr c).app := by
  have hb' : births h ≤ noId := by unfold noId; omega
  clear hb
  induction r with
  | init => cases hj
  | @step s s' h a o' r hst ih =>
    have hb1 := births_le hb'
    have S := seen r hb1
    have T := tabs r hb1
    have F := frame hst
    rcases List.mem_append.mp hj with hj | hj
    · obtain ⟨c0, attr, g1, g2⟩ := ih hj hb1
      refine ⟨c0, attr, List.mem_append_left _ g1, ?_⟩
      have hc0 := (S.made k i c0 ⟨attr, g1⟩).2.1
      have hc : c < s.n := actor_lt r hj rfl
      rw [F.app c0 hc0, F.app c hc]; exact g2
    · simp only [List.mem_singleton] at hj
      cases hj
      have hr := actor_runs hst rfl
      have hc := runs_lt hr
      have happ := F.app
      unfold step at hst
      split at hst
      · cases hst
      · simp only [hr, if_true] at hst
        split at hst
        · cases hst; simp [names] at ho
        · next k0 hk0 =>
          simp only [Option.some.injEq] at hst
          have hk : k = k0 := by
            rcases join_spec hst with ⟨_, rfl, _⟩ | ⟨_, _, rfl, _⟩ | ⟨_, _, rfl, _⟩ <;> simp [names] at ho <;> exact ho.symm
          subst hk
          obtain ⟨g1, c0, ⟨attr, m⟩⟩ := T.sub _ _ _ hk0
          obtain ⟨m1, m2, _, _, m5, _⟩ := S.made k i c0 ⟨attr, m⟩
          exact ⟨c0, attr, List.mem_append_left _ m, by rw [happ c0 m2, happ c hc, ← m5]; exact g1⟩

/-- A program that joins or detaches each thread at most once never uses or deletes an object that
was deleted; `pthread_setaffinity_np` and `pthread_getaffinity_np` excepted. -/
theorem C126_deletion_partial {s : St} {h : List (Act × Out)} (r : Run s h) (hb : births h < 2 ^ 32) (hf : Fair h) {a : Act} {k : Nat}
    (hu : (a, Out.ub k) ∈ h) : (∃ c i m, a = .affSet c i m) ∨ ∃ c i, a = .affGet c i := by
  have hb' : births h ≤ noId := by unfold noId; omega
  clear hb
  induction r with
  | init => cases hu
  | @step s s' h a' o r hst ih =>
    have hb1 := births_le hb'
    have hf1 : Fair h := fun j => Nat.le_trans (weight_mono j h _) (hf j)
    rcases List.mem_append.mp hu with hu | hu
    · exact ih hf1 hu hb1
    · simp only [List.mem_singleton] at hu
      cases hu
      have B := base r hb1
      have S := seen r hb1
      have T := tabs r hb1
      have E := endsInv r hb1
      cases a
      case affSet c i m => exact Or.inl ⟨c, i, m, rfl⟩
      case affGet c i => exact Or.inr ⟨c, i, rfl⟩
      case join c i =>
        exfalso
        have hr := actor_runs hst rfl
        unfold step at hst
        split at hst
        · cases hst
        · simp only [hr, if_true] at hst
          split at hst
          · cases hst
          · next k0 hk0 =>
            simp only [Option.some.injEq] at hst
            rcases join_spec hst with ⟨g, ho, _⟩ | ⟨_, _, ho, _⟩ | ⟨_, _, ho, _⟩ <;> cases ho
            obtain ⟨_, c0, m⟩ := T.sub _ _ _ hk0
            obtain ⟨m1, _, _, _, _, m6⟩ := S.made _ _ _ m
            have h1 := (E.fr k m1 g).2 m6
            have h2 := weight_names h (join_names hst i).1.1
            have := hf k
            omega
      case joinStd c k0 =>
        exfalso
        unfold step at hst
        split at hst
        · cases hst
        · simp only at hst
          split at hst
          · next hcond =>
            simp only [Bool.and_eq_true, decide_eq_true_eq] at hcond
            simp only [Option.some.injEq] at hst
            have hn2 := (join_names hst k0).2.1
            rcases join_spec hst with ⟨g, ho, _⟩ | ⟨_, _, ho, _⟩ | ⟨_, _, ho, _⟩ <;> cases ho
            have h1 := (E.fr k hcond.2.1 g).2 (B.std k hcond.2.1 hcond.2.2)
            have h2 := weight_names h hn2
            have := hf k
            omega
          · cases hst
      case detach c i =>
        exfalso
        have hr := actor_runs hst rfl
        unfold step at hst
        split at hst
        · cases hst
        · simp only [hr, if_true] at hst
          split at hst
          · cases hst
          · next k0 hk0 =>
            split at hst
            · next g =>
              cases hst
              obtain ⟨_, c0, m⟩ := T.sub _ _ _ hk0
              obtain ⟨m1, _, _, _, _, m6⟩ := S.made _ _ _ m
              have h1 := (E.fr k m1 g).2 m6
              have hnm : names k (Act.detach c i, Out.ub k) = true := by simp [names]
              have h2 := weight_names h hnm
              have := hf k
              omega
            · cases hst
      case finish c rv =>
        exfalso
        have hr := actor_runs hst rfl
        have hc := runs_lt hr
        have hfc : (s.thr c).freed = false := by
          cases hf : (s.thr c).freed with
          | false => rfl
          | true => have := (E.fr c hc hf).1; rw [runs_done hr] at this; cases this
        unfold step at hst
        split at hst
        · cases hst
        · simp only at hst
          split at hst
          · simp only [Option.some.injEq] at hst
            rcases finish_spec hst hfc with ⟨_, _, g⟩ | ⟨⟨js, ho⟩, _⟩
            · have hwait : 1 ≤ s.waitsFor c → (s.thr c).app ≠ c := by
                intro hp
                unfold St.waitsFor at hp
                obtain ⟨⟨d, x, via⟩, hm⟩ := List.exists_mem_of_length_pos hp
                obtain ⟨hm1, hm2⟩ := List.mem_filter.mp hm
                have hx : x = c := by simpa using hm2
                subst hx
                exact (T.wait d x via hm1).2.2.1
              have hle : weight c h ≤ 1 := hf1 c
              rcases g with g | ⟨g1, g2⟩
              · have := E.wt c hc (hwait (by omega)); omega
              · have h2 := E.wt c hc (hwait g1)
                rcases g2 with g2 | g2
                · rw [g2] at h2; simp at h2; omega
                · exact hwait g1 g2
            · cases ho
          · cases hst
      all_goals
        exfalso
        unfold step at hst
        split at hst
        · cases hst
        · simp only at hst
          try (split at hst)
          all_goals first | cases hst | skip

/-- Threads that are joined once, detached once, created detached: nothing is used after deletion. -/
example : outs [.launch 0, .create 0 none, .create 0 (some (true, 1)), .create 0 none, .start, .start, .start, .detach 0 3, .finish 3 0, .finish 2 0, .finish 1 0, .join 0 1]
    = some [.made 0 0, .made 1 1, .made 2 2, .made 3 3, .ok, .ok, .ok, .detached 3, .ended [] [], .ended [] [], .ended [] [], .joined 1 none] := by decide

/-- A joined thread that ends returns its value to nobody: `*status` is not written. -/
theorem C126_status_refuted : outs [.launch 0, .create 0 none, .start, .finish 1 7, .join 0 1]
    = some [.made 0 0, .made 1 1, .ok, .ended [] [], .joined 1 none] := by decide

/-- A thread that is detached after its end is never deleted. -/
theorem C126_detach_refuted : ∃ s h, exec St.init [.launch 0, .create 0 none, .start, .finish 1 0, .detach 0 1, .finish 0 0] = some (s, h) ∧
    (s.thr 1).done = true ∧ (s.thr 1).detached = true ∧ (s.thr 1).freed = false ∧ (s.thr 0).freed = true := by
  refine ⟨_, _, rfl, ?_⟩; decide

/-- Two threads that wait for the same thread: it is deleted twice (without the rule of
`C126_deletion_partial`). -/
example : outs [.launch 0, .create 0 none, .create 0 none, .start, .start, .join 0 1, .join 2 1, .finish 1 0]
    = some [.made 0 0, .made 1 1, .made 2 2, .ok, .ok, .blocked 1, .blocked 1, .ub 1] := by decide

/-! ## Keys -/

/-- `pthread_getspecific` returns what the same thread stored last under the key, or null. -/
theorem C126_values {s : St} {h : List (Act × Out)} (r : Run s h) {h1 h2 : List (Act × Out)} {c k v : Nat}
    (hg : h = h1 ++ (Act.get c k, Out.num v) :: h2) : v = lastSet c k h1 := by
  have inv : ∀ {s : St} {h : List (Act × Out)}, Run s h →
      (∀ c k, c < s.n → (look (s.thr c).tls k).getD 0 = lastSet c k h) ∧ (∀ c k, s.n ≤ c → lastSet c k h = 0) := by
    intro s h r
    induction r with
    | init => exact ⟨fun c k hc => absurd hc (Nat.not_lt_zero _), fun c k _ => rfl⟩
    | @step s s' h a o r hst ih =>
      obtain ⟨i1, i2⟩ := ih
      have F := frame hst
      have hn := frame_n hst
      have hsn : ∀ c k, lastSet c k (h ++ [(a, o)]) = match a with | .set c' k' w => if c' = c ∧ k' = k then w else lastSet c k h | _ => lastSet c k h := by
        intro c k; unfold lastSet; rw [List.foldl_append]; cases a <;> rfl
      constructor
      · intro c k hc
        rw [hsn]
        by_cases hcn : c < s.n
        · have ht := F.tls c hcn
          cases a <;> simp only at ht ⊢ <;> try (rw [ht]; exact i1 c k hcn)
          case set c' k' w =>
            by_cases e : c' = c
            · rw [if_pos e] at ht
              rw [ht, look_put']
              by_cases e2 : k' = k
              · simp [e, e2]
              · simp only [e2, if_false, and_false]; exact i1 c k hcn
            · rw [if_neg e] at ht
              rw [ht]; simp only [e, false_and, if_false]; exact i1 c k hcn
        · have hne : s'.n ≠ s.n := by omega
          have hke : c = s.n := by
            have := F.n
            have h1 : s'.n ≤ s.n + 1 := by rw [this]; split <;> omega
            omega
          subst hke
          rw [(newborn hst hne).2.2.1]
          have h0 := i2 s.n k (Nat.le_refl _)
          cases a <;> simp only [look, Option.getD_none] <;> try (exact h0.symm)
          case set c' k' w => exact absurd F.n hne
      · intro c k hc
        rw [hsn]
        have h0 := i2 c k (by omega)
        cases a <;> simp only <;> try (exact h0)
        case set c' k' w =>
          have := runs_lt (actor_runs hst rfl)
          rw [if_neg (by omega)]; exact h0
  induction r generalizing h1 h2 with
  | init => simp at hg
  | @step s s' h a o r hst ih =>
    rcases List.eq_nil_or_concat h2 with rfl | ⟨h2', e, rfl⟩
    · have hh := List.append_inj' (t₁ := [(a, o)]) hg rfl
      obtain ⟨rfl, he⟩ := hh
      simp only [List.cons.injEq, and_true] at he
      cases he
      have hr := actor_runs hst rfl
      rw [← (inv r).1 c k (runs_lt hr)]
      unfold step at hst
      split at hst
      · cases hst
      · simp only [hr, if_true, Option.some.injEq, Prod.mk.injEq, Out.num.injEq] at hst
        exact hst.2.symm
    · have hh := List.append_inj' (s₁ := h) (s₂ := h1 ++ (Act.get c k, Out.num v) :: h2') (t₁ := [(a, o)]) (t₂ := [e]) (by rw [hg]; simp) rfl
      exact ih hh.1

/-- Two threads that store under the same key. -/
example : outs [.launch 0, .create 0 none, .start, .key 0 0, .set 0 0 5, .get 1 0, .set 1 0 6, .get 0 0, .get 1 0]
    = some [.made 0 0, .made 1 1, .ok, .num 0, .ok, .num 0, .ok, .num 5, .num 6] := by decide

/-- Each key of a process is new. -/
theorem C126_keys {s : St} {h : List (Act × Out)} (r : Run s h) :
    h.Pairwise fun e e' => ∀ c c' d d' v v', e = (Act.key c d, Out.num v) → e' = (Act.key c' d', Out.num v') → (s.thr c).app = (s.thr c').app → v < v' := by
  have inv : h.Pairwise (fun e e' => ∀ c c' d d' v v', e = (Act.key c d, Out.num v) → e' = (Act.key c' d', Out.num v') → (s.thr c).app = (s.thr c').app → v < v') ∧
      ∀ c d v, (Act.key c d, Out.num v) ∈ h → c < s.n ∧ v < s.nextKey (s.thr c).app := by
    induction r with
    | init => exact ⟨List.Pairwise.nil, fun c d v m => (by cases m)⟩
    | @step s s' h a o r hst ih =>
      obtain ⟨i1, i2⟩ := ih
      have F := frame hst
      have hn := frame_n hst
      have hmono : ∀ p, s.nextKey p ≤ s'.nextKey p := by
        intro p
        have hc : ∀ {x : St}, Calm s x → s.nextKey p ≤ x.nextKey p := fun hx => by rw [hx.nextKey]; exact Nat.le_refl _
        unfold step at hst
        split at hst
        · cases hst
        cases a <;> simp only at hst
        case launch rk => cases hst; exact Nat.le_refl _
        case elsewhere => cases hst; exact Nat.le_refl _
        case create c attr => split at hst <;> cases hst; exact Nat.le_refl _
        case std c => split at hst <;> cases hst; exact Nat.le_refl _
        case start =>
          split at hst
          · cases hst
          · cases hst; unfold begin_; simp only; split <;> exact Nat.le_refl _
        case join c i =>
          split at hst
          · split at hst
            · cases hst; exact Nat.le_refl _
            · simp only [Option.some.injEq] at hst; exact hc (calm_join hst)
          · cases hst
        case joinStd c i =>
          split at hst
          · simp only [Option.some.injEq] at hst; exact hc (calm_join hst)
          · cases hst
        case finish c i =>
          split at hst
          · simp only [Option.some.injEq] at hst; exact hc (calm_finish hst)
          · cases hst
        case key c d =>
          split at hst <;> cases hst
          simp only [upd]; split
          · next e => subst e; omega
          · exact Nat.le_refl _
        case detach c i =>
          split at hst
          · split at hst
            · cases hst; exact Nat.le_refl _
            · split at hst <;> cases hst <;> exact Nat.le_refl _
          · cases hst
        case affSet c i m =>
          split at hst
          · split at hst
            · cases hst; exact Nat.le_refl _
            · split at hst <;> cases hst <;> exact Nat.le_refl _
          · cases hst
        case affGet c i =>
          split at hst
          · split at hst
            · cases hst; exact Nat.le_refl _
            · split at hst <;> cases hst <;> exact Nat.le_refl _
          · cases hst
        all_goals (split at hst <;> cases hst; exact Nat.le_refl _)
      have hkey : ∀ c d v, (a, o) = (Act.key c d, Out.num v) → c < s.n ∧ v = s.nextKey (s.thr c).app ∧ s'.nextKey (s.thr c).app = v + 1 := by
        intro c d v he
        cases he
        have hr := actor_runs hst rfl
        unfold step at hst
        split at hst
        · cases hst
        · simp only [hr, if_true, Option.some.injEq, Prod.mk.injEq, Out.num.injEq] at hst
          obtain ⟨rfl, rfl⟩ := hst
          exact ⟨runs_lt hr, rfl, by simp [upd]⟩
      constructor
      · rw [List.pairwise_append]
        refine ⟨?_, List.pairwise_singleton _ _, ?_⟩
        · refine List.Pairwise.imp_of_mem ?_ i1
          intro e e' me me' hee c c' d d' v v' h1 h2 h3
          subst h1; subst h2
          have hc := (i2 c d v me).1
          have hc' := (i2 c' d' v' me').1
          rw [F.app c hc, F.app c' hc'] at h3
          exact hee c c' d d' v v' rfl rfl h3
        · intro e me e' me' c c' d d' v v' h1 h2 h3
          simp only [List.mem_singleton] at me'
          subst h1; subst me'
          obtain ⟨g1, g2⟩ := i2 c d v me
          obtain ⟨k1, k2, _⟩ := hkey c' d' v' h2
          rw [F.app c g1, F.app c' k1] at h3
          rw [h3] at g2; omega
      · intro c d v m
        rcases List.mem_append.mp m with m | m
        · obtain ⟨g1, g2⟩ := i2 c d v m
          refine ⟨by omega, ?_⟩
          rw [F.app c g1]; have := hmono (s.thr c).app; omega
        · simp only [List.mem_singleton] at m
          obtain ⟨k1, k2, k3⟩ := hkey c d v m.symm
          exact ⟨by omega, by rw [F.app c k1, k3]; omega⟩
  exact inv.1

/-- Two processes count their keys separately. -/
example : outs [.launch 0, .launch 1, .key 0 9, .key 0 9, .key 1 0] = some [.made 0 0, .made 1 1, .num 0, .num 1, .num 0] := by decide

/-- The destructor of a key is not called when a thread with a value ends. -/
theorem C126_destructor_refuted : outs [.launch 0, .create 0 none, .start, .key 0 9, .set 1 0 5, .finish 1 0]
    = some [.made 0 0, .made 1 1, .ok, .num 0, .ok, .ended [] []] := by decide

/-! ## Affinities -/

/-- In a program that does not use `pthread_setaffinity_np`, the mask of a thread is the one that it
set for itself last, or the one in the attributes with which it was created, or all cores. -/
theorem C126_mask_partial {s : St} {h : List (Act × Out)} (r : Run s h) (hna : ∀ e ∈ h, ∀ c i m, e.1 ≠ Act.affSet c i m)
    {h1 h2 : List (Act × Out)} {c : Nat} {m : BitVec 64} (hg : h = h1 ++ (Act.schedGet c, Out.mask m) :: h2) : m = lastMask c h1 := by
  have inv : ∀ {s : St} {h : List (Act × Out)}, Run s h → (∀ e ∈ h, ∀ c i m, e.1 ≠ Act.affSet c i m) →
      (∀ c, c < s.n → (s.thr c).mask = lastMask c h) ∧ (∀ c, s.n ≤ c → lastMask c h = allCores) := by
    intro s h r hna
    induction r with
    | init => exact ⟨fun c hc => absurd hc (Nat.not_lt_zero _), fun c _ => rfl⟩
    | @step s s' h a o r hst ih =>
      obtain ⟨i1, i2⟩ := ih (fun e he => hna e (List.mem_append_left _ he))
      have hna' : ∀ c i m, a ≠ Act.affSet c i m := fun c i m => hna (a, o) (by simp) c i m
      have F := frame hst
      have hn := frame_n hst
      have hsn : ∀ c, lastMask c (h ++ [(a, o)]) = (fun v e =>
          match e with
          | (.create _ attr, .made k _) => if k = c then bornMask attr else v
          | (.schedSet c' m, _) => if c' = c then m else v
          | _ => v) (lastMask c h) (a, o) := by
        intro c; unfold lastMask; rw [List.foldl_append]; rfl
      constructor
      · intro c hc
        rw [hsn]
        by_cases hcn : c < s.n
        · have ht := F.mask c hcn
          cases a <;> simp only at ht ⊢ <;> try (rw [ht]; exact i1 c hcn)
          case create c' attr =>
            obtain ⟨_, ho⟩ := create_step hst
            subst ho
            simp only
            rw [if_neg (by omega), ht]; exact i1 c hcn
          case schedSet c' m' =>
            rw [ht]
            split
            · rfl
            · exact i1 c hcn
          case affSet c' i' m' => exact absurd rfl (hna' c' i' m')
        · have hne : s'.n ≠ s.n := by omega
          have hke : c = s.n := by
            have := F.n
            have h1 : s'.n ≤ s.n + 1 := by rw [this]; split <;> omega
            omega
          subst hke
          obtain ⟨_, _, _, _, b4, _⟩ := newborn hst hne
          rw [b4]
          have h0 := i2 s.n (Nat.le_refl _)
          cases a <;> simp only [actMask] <;> try (exact h0.symm)
          case create c' attr =>
            obtain ⟨_, ho⟩ := create_step hst
            subst ho
            simp
          case schedSet c' m' => exact absurd F.n hne
      · intro c hc
        rw [hsn]
        have h0 := i2 c (by omega)
        cases a <;> simp only <;> try (exact h0)
        case create c' attr =>
          obtain ⟨_, ho⟩ := create_step hst
          subst ho
          simp only
          have := F.n
          simp only at this
          rw [if_neg (by omega)]; exact h0
        case schedSet c' m' =>
          have := runs_lt (actor_runs hst rfl)
          rw [if_neg (by omega)]; exact h0
  induction r generalizing h1 h2 with
  | init => simp at hg
  | @step s s' h a o r hst ih =>
    have hna' : ∀ e ∈ h, ∀ c i m, e.1 ≠ Act.affSet c i m := fun e he => hna e (List.mem_append_left _ he)
    rcases List.eq_nil_or_concat h2 with rfl | ⟨h2', e, rfl⟩
    · have hh := List.append_inj' (t₁ := [(a, o)]) hg rfl
      obtain ⟨rfl, he⟩ := hh
      simp only [List.cons.injEq, and_true] at he
      cases he
      have hr := actor_runs hst rfl
      rw [← (inv r hna').1 c (runs_lt hr)]
      unfold step at hst
      split at hst
      · cases hst
      · simp only [hr, if_true, Option.some.injEq, Prod.mk.injEq, Out.mask.injEq] at hst
        exact hst.2.symm
    · have hh := List.append_inj' (s₁ := h) (s₂ := h1 ++ (Act.schedGet c, Out.mask m) :: h2') (t₁ := [(a, o)]) (t₂ := [e]) (by rw [hg]; simp) rfl
      exact ih hna' hh.1

/-- A thread with a mask in its attributes, then one that it sets itself. -/
example : outs [.launch 0, .create 0 (some (false, 3)), .start, .schedGet 1, .schedSet 1 4, .schedGet 1, .schedGet 0]
    = some [.made 0 0, .made 1 1, .ok, .mask 3, .ok, .mask 4, .mask allCores] := by decide

/-- On a node where each process has one thread, the ranks of the processes differ and all are
running, `pthread_setaffinity_np` sets the mask of the thread that it names, and of no other, if the
number of this thread happens to be the rank of its process. -/
theorem C126_affinity_partial {s : St} {h : List (Act × Out)} (r : Run s h) (hh : s.halted = false)
    (hone : ∀ e ∈ h, ∀ c attr v, e.1 ≠ Act.create c attr ∧ e.1 ≠ Act.std c ∧ e.1 ≠ Act.finish c v)
    (hranks : ∀ i j, i < s.n → j < s.n → (s.thr i).rank = (s.thr j).rank → i = j) {c k : Nat} (hr : s.runs c = true) (hk : k < s.n)
    (hid : (s.thr k).id = (s.thr k).rank) (m : BitVec 64) :
    ∃ s', step s (.affSet c (s.thr k).id m) = some (s', .ok) ∧ (s'.thr k).mask = m ∧ ∀ j, j ≠ k → s'.thr j = s.thr j := by
  have inv : ∀ {s : St} {h : List (Act × Out)}, Run s h → (∀ e ∈ h, ∀ c attr v, e.1 ≠ Act.create c attr ∧ e.1 ≠ Act.std c ∧ e.1 ≠ Act.finish c v) →
      (∀ j, j < s.n → (s.thr j).std = false ∧ (s.thr j).freed = false) ∧ (∀ p, s.subs p = []) ∧ s.starts = [] ∧
      (∀ j, j < s.n → ∃ j', j' < s.n ∧ (s.thr j').rank = (s.thr j).rank ∧ look s.running (s.thr j).rank = some j') := by
    intro s h r hone
    induction r with
    | init => exact ⟨fun j hj => absurd hj (Nat.not_lt_zero _), fun _ => rfl, rfl, fun j hj => absurd hj (Nat.not_lt_zero _)⟩
    | @step s s' h a o r hst ih =>
      obtain ⟨i1, i2, i3, i4⟩ := ih (fun e he => hone e (List.mem_append_left _ he))
      have hone' := fun c attr v => hone (a, o) (by simp) c attr v
      have hq : ∀ s' : St, s'.n = s.n → (∀ j, (s'.thr j).std = (s.thr j).std ∧ (s'.thr j).freed = (s.thr j).freed ∧ (s'.thr j).rank = (s.thr j).rank) → s'.subs = s.subs → s'.starts = s.starts → s'.running = s.running →
          (∀ j, j < s'.n → (s'.thr j).std = false ∧ (s'.thr j).freed = false) ∧ (∀ p, s'.subs p = []) ∧ s'.starts = [] ∧
          (∀ j, j < s'.n → ∃ j', j' < s'.n ∧ (s'.thr j').rank = (s'.thr j).rank ∧ look s'.running (s'.thr j).rank = some j') := by
        intro s' e1 e2 e3 e4 e5
        refine ⟨fun j hj => ?_, fun p => by rw [e3]; exact i2 p, by rw [e4]; exact i3, fun j hj => ?_⟩
        · rw [(e2 j).1, (e2 j).2.1]; exact i1 j (by omega)
        · obtain ⟨j', g1, g2, g3⟩ := i4 j (by omega)
          exact ⟨j', by omega, by rw [(e2 j').2.2, (e2 j).2.2]; exact g2, by rw [e5, (e2 j).2.2]; exact g3⟩
      have hup : ∀ (k : Nat) (t : Thr), t.std = (s.thr k).std → t.freed = (s.thr k).freed → t.rank = (s.thr k).rank →
          ∀ j, (upd s.thr k t j).std = (s.thr j).std ∧ (upd s.thr k t j).freed = (s.thr j).freed ∧ (upd s.thr k t j).rank = (s.thr j).rank := by
        intro k t t1 t2 t3 j
        simp only [upd]; split
        · next e => subst e; exact ⟨t1, t2, t3⟩
        · exact ⟨rfl, rfl, rfl⟩
      have hself : ∀ j, (s.thr j).std = (s.thr j).std ∧ (s.thr j).freed = (s.thr j).freed ∧ (s.thr j).rank = (s.thr j).rank := fun _ => ⟨rfl, rfl, rfl⟩
      have F := frame hst
      unfold step at hst
      split at hst
      · cases hst
      cases a <;> simp only at hst
      case launch rk =>
        cases hst
        refine ⟨?_, i2, i3, ?_⟩
        · intro j hj
          simp only [launch, St.add, St.bump, upd] at hj ⊢
          split
          · exact ⟨rfl, rfl⟩
          · exact i1 j (by omega)
        · intro j hj
          simp only [launch, St.add, St.bump, upd] at hj ⊢
          by_cases e : j = s.n
          · refine ⟨s.n, by omega, by simp [e], ?_⟩
            simp [e, look_put']
          · simp only [if_neg e]
            by_cases e2 : rk = (s.thr j).rank
            · exact ⟨s.n, by omega, by simp [e2], by rw [look_put', if_pos e2]⟩
            · obtain ⟨j', g1, g2, g3⟩ := i4 j (by omega)
              exact ⟨j', by omega, by rw [if_neg (by omega)]; exact g2, by rw [look_put', if_neg e2]; exact g3⟩
      case elsewhere => cases hst; exact hq _ rfl hself rfl rfl rfl
      case create c attr => exact absurd rfl (hone' c attr 0).1
      case std c => exact absurd rfl (hone' c none 0).2.1
      case finish c v => exact absurd rfl (hone' c none v).2.2
      case start => rw [i3] at hst; cases hst
      case self c => split at hst <;> cases hst; exact hq _ rfl hself rfl rfl rfl
      case join c i =>
        split at hst
        · rw [i2] at hst; cases hst; exact hq _ rfl hself rfl rfl rfl
        · cases hst
      case joinStd c k =>
        split at hst
        · next hc => simp only [Bool.and_eq_true, decide_eq_true_eq] at hc; rw [(i1 k hc.2.1).1] at hc; exact absurd hc.2.2 Bool.false_ne_true
        · cases hst
      case detach c i =>
        split at hst
        · rw [i2] at hst; cases hst; exact hq _ rfl hself rfl rfl rfl
        · cases hst
      case key c d => split at hst <;> cases hst; exact hq _ rfl hself rfl rfl rfl
      case keyDel c d => split at hst <;> cases hst; exact hq _ rfl hself rfl rfl rfl
      case set c k v => split at hst <;> cases hst; exact hq _ rfl (hup _ _ rfl rfl rfl) rfl rfl rfl
      case get c k => split at hst <;> cases hst; exact hq _ rfl hself rfl rfl rfl
      case schedSet c m => split at hst <;> cases hst; exact hq _ rfl (hup _ _ rfl rfl rfl) rfl rfl rfl
      case schedGet c => split at hst <;> cases hst; exact hq _ rfl hself rfl rfl rfl
      case affSet c i m =>
        split at hst
        · split at hst
          · cases hst; exact hq _ rfl hself rfl rfl rfl
          · split at hst
            · cases hst; exact hq _ rfl hself rfl rfl rfl
            · cases hst; exact hq _ rfl (hup _ _ rfl rfl rfl) rfl rfl rfl
        · cases hst
      case affGet c i =>
        split at hst
        · split at hst
          · cases hst; exact hq _ rfl hself rfl rfl rfl
          · split at hst <;> cases hst <;> exact hq _ rfl hself rfl rfl rfl
        · cases hst
  obtain ⟨i1, _, _, i4⟩ := inv r hone
  obtain ⟨k', g1, g2, g3⟩ := i4 k hk
  have e := hranks k' k g1 hk g2
  subst e
  rw [hid]
  refine ⟨{ s with thr := upd s.thr k' { s.thr k' with mask := m } }, ?_, by simp [upd], fun j hj => by simp [upd, hj]⟩
  unfold step
  simp only [hh, Bool.false_eq_true, if_false, hr, if_true, g3, (i1 k' hk).2]

/-- Two processes whose threads have the numbers of their ranks. -/
example : outs [.launch 0, .launch 1, .self 1, .affSet 0 1 5, .schedGet 1, .schedGet 0]
    = some [.made 0 0, .made 1 1, .num 1, .ok, .mask 5, .mask allCores] := by decide

/-- `pthread_setaffinity_np` of the main thread's own number sets the mask of another thread. -/
theorem C126_affinity_refuted : outs [.launch 0, .create 0 none, .start, .self 0, .affSet 0 0 1, .schedGet 0, .schedGet 1]
    = some [.made 0 0, .made 1 1, .ok, .num 0, .ok, .mask allCores, .mask 1] := by decide

/-- It does not know the number of a thread that is running. -/
theorem C126_affinity_unknown_refuted : outs [.launch 0, .create 0 none, .start, .self 1, .affSet 1 1 1, .affGet 0 1]
    = some [.made 0 0, .made 1 1, .ok, .num 1, .einval, .einval] := by decide

/-- After a join it does not even know the number of the main thread. -/
theorem C126_affinity_join_refuted : outs [.launch 0, .affGet 0 0, .create 0 none, .start, .finish 1 0, .join 0 1, .affGet 0 0]
    = some [.made 0 0, .mask allCores, .made 1 1, .ok, .ended [] [], .joined 1 none, .einval] := by decide

/-- After the end of a detached thread it uses the deleted thread: the program is fair and only names
its own main thread. -/
theorem C126_affinity_deleted_refuted : outs [.launch 0, .create 0 (some (true, 1)), .start, .finish 1 0, .affGet 0 0]
    = some [.made 0 0, .made 1 1, .ok, .ended [] [], .ub 1] := by decide

/-- A new thread does not inherit the mask of the thread that created it. -/
theorem C126_inherit_refuted : outs [.launch 0, .schedSet 0 1, .create 0 none, .start, .schedGet 1]
    = some [.made 0 0, .ok, .made 1 1, .ok, .mask allCores] := by decide

end Verif.Os.Pth
