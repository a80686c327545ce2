import Verif.Os.PthreadLemmas
set_option autoImplicit false

/-!
# Invariants of threads, keys and affinities
-/

namespace Verif.Os.Pth

theorem births_snoc (h : List (Act × Out)) (e : Act × Out) : births (h ++ [e]) = births h + (isBirth e.1).toNat := by
  unfold births
  rw [List.filter_append, List.length_append]
  cases hb : isBirth e.1 <;> simp [hb]

theorem weight_mono (k : Nat) (h : List (Act × Out)) (e : Act × Out) : weight k h ≤ weight k (h ++ [e]) := by
  unfold weight
  simp only [List.filter_append, List.length_append]
  omega

theorem weight_names {k : Nat} (h : List (Act × Out)) {e : Act × Out} (he : names k e = true) : weight k h + 1 ≤ weight k (h ++ [e]) := by
  unfold weight
  simp only [List.filter_append, List.length_append]
  have : (List.filter (names k) [e]).length = 1 := by simp [he]
  omega

theorem weight_born {k : Nat} (h : List (Act × Out)) {e : Act × Out} (he : bornDetached k e = true) : weight k h + 1 ≤ weight k (h ++ [e]) := by
  unfold weight
  simp only [List.filter_append, List.length_append]
  have : (List.filter (bornDetached k) [e]).length = 1 := by simp [he]
  omega

/-- The threads that wait for their number. -/
def St.nameless (s : St) : Nat := (s.starts.filter fun k => (s.thr k).id == noId).length

/-- Numbers of threads. -/
structure Base (s : St) (b : Nat) : Prop where
  app : ∀ j, j < s.n → (s.thr j).app ≤ j
  starts : ∀ k, k ∈ s.starts → k < s.n
  cnt : s.cnt + s.nameless ≤ b
  idLt : ∀ j, j < s.n → (s.thr j).id ≠ noId → (s.thr j).id < s.cnt
  dist : ∀ i j, i < s.n → j < s.n → (s.thr i).id ≠ noId → (s.thr i).id = (s.thr j).id → i = j
  named : ∀ j, j < s.n → (s.thr j).started = true → (s.thr j).id ≠ noId
  std : ∀ j, j < s.n → (s.thr j).std = true → (s.thr j).app ≠ j

/-- Nothing that `Base` speaks of changed. -/
structure Still (s s' : St) : Prop where
  cnt : s'.cnt = s.cnt
  n : s'.n = s.n
  starts : s'.starts = s.starts
  app : ∀ j, (s'.thr j).app = (s.thr j).app
  id : ∀ j, (s'.thr j).id = (s.thr j).id
  started : ∀ j, (s'.thr j).started = (s.thr j).started
  std : ∀ j, (s'.thr j).std = (s.thr j).std

theorem Calm.still {s s' : St} (h : Calm s s') : Still s s' :=
  ⟨h.cnt, h.n, h.starts, fun j => (h.thr j).app, fun j => (h.thr j).id, fun j => (h.thr j).started, fun j => (h.thr j).std⟩

theorem Still.base {s s' : St} {b b' : Nat} (h : Still s s') (hb : b ≤ b') (i : Base s b) : Base s' b' := by
  have hn : s'.nameless = s.nameless := by unfold St.nameless; rw [h.starts]; simp only [h.id]
  refine ⟨?_, ?_, ?_, ?_, ?_, ?_, ?_⟩
  · intro j hj; rw [h.app]; exact i.app j (h.n ▸ hj)
  · intro k hk; rw [h.n]; exact i.starts k (h.starts ▸ hk)
  · rw [h.cnt, hn]; have := i.cnt; omega
  · intro j hj hi; rw [h.id] at hi ⊢; rw [h.cnt]; exact i.idLt j (h.n ▸ hj) hi
  · intro a c ha hc hi he; rw [h.id] at hi he; rw [h.id] at he; exact i.dist a c (h.n ▸ ha) (h.n ▸ hc) hi he
  · intro j hj hs; rw [h.started] at hs; rw [h.id]; exact i.named j (h.n ▸ hj) hs
  · intro j hj hs; rw [h.std] at hs; rw [h.app]; exact i.std j (h.n ▸ hj) hs

theorem nameless_add {s : St} {t : Thr} (hs : ∀ k, k ∈ s.starts → k < s.n) :
    (s.starts.filter fun k => (upd s.thr s.n t k).id == noId) = s.starts.filter fun k => (s.thr k).id == noId := by
  apply List.filter_congr
  intro k hk
  rw [upd_ne]
  have := hs k hk; omega

theorem still_upd {s : St} {k : Nat} {t : Thr} (h1 : t.app = (s.thr k).app) (h2 : t.id = (s.thr k).id) (h3 : t.started = (s.thr k).started)
    (h4 : t.std = (s.thr k).std) : Still s { s with thr := upd s.thr k t } := by
  refine ⟨rfl, rfl, rfl, ?_, ?_, ?_, ?_⟩ <;> intro j <;> simp only [upd] <;> split <;> simp_all

/-- A new thread that has its number. -/
theorem base_new {s : St} {b : Nat} {t : Thr} {st : List Nat} (hb : b + 1 ≤ noId) (i : Base s b) (ha : t.app ≤ s.n) (hid : t.id = s.cnt)
    (hstd : t.std = false) (hst : st = s.starts ∨ st = s.starts ++ [s.n]) (subs : Nat → List (Nat × Nat)) (run : List (Nat × Nat)) :
    Base { (s.add t).bump with subs := subs, running := run, starts := st } (b + 1) := by
  have hc := i.cnt
  have hno : noId = 4294967295 := rfl
  have hcn : (s.cnt + 1) % 2 ^ 32 = s.cnt + 1 := by rw [Nat.mod_eq_of_lt]; rw [hno] at hb; omega
  refine ⟨?_, ?_, ?_, ?_, ?_, ?_, ?_⟩
  · intro j hj
    simp only [St.add, St.bump, upd] at hj ⊢
    split
    · omega
    · exact i.app j (by omega)
  · intro k hk
    simp only [St.add, St.bump] at hk ⊢
    rcases hst with rfl | rfl
    · have := i.starts k hk; omega
    · rcases List.mem_append.mp hk with h | h
      · have := i.starts k h; omega
      · simp at h; omega
  · have : (St.nameless { (s.add t).bump with subs := subs, running := run, starts := st }) = s.nameless := by
      unfold St.nameless
      simp only [St.add, St.bump]
      rcases hst with rfl | rfl
      · rw [nameless_add i.starts]
      · rw [List.filter_append, nameless_add i.starts]
        have : (t.id == noId) = false := by simp [hid]; omega
        simp [upd, this]
    rw [this]
    simp only [St.add, St.bump]
    omega
  · intro j hj hi
    simp only [St.add, St.bump, upd] at hj hi ⊢
    split
    · omega
    · next h => rw [if_neg h] at hi; have := i.idLt j (by omega) hi; omega
  · intro a c hA hC hi he
    simp only [St.add, St.bump, upd] at hA hC hi he
    by_cases h1 : a = s.n <;> by_cases h2 : c = s.n
    · omega
    · simp only [h1, h2, if_true, if_false] at hi he
      have := i.idLt c (by omega) (by rw [← he]; exact hi)
      omega
    · simp only [h1, h2, if_true, if_false] at hi he
      have := i.idLt a (by omega) hi
      omega
    · simp only [h1, h2, if_false] at hi he
      exact i.dist a c (by omega) (by omega) hi he
  · intro j hj hs
    simp only [St.add, St.bump, upd] at hj hs ⊢
    split
    · omega
    · next h => rw [if_neg h] at hs; exact i.named j (by omega) hs
  · intro j hj hs
    simp only [St.add, St.bump, upd] at hj hs ⊢
    split
    · next h => simp [h, hstd] at hs
    · next h => rw [if_neg h] at hs; exact i.std j (by omega) hs

theorem base_std {s : St} {b : Nat} {c : Nat} (i : Base s b) (hc : c < s.n) : Base (std s c) (b + 1) := by
  have hcnt := i.cnt
  have hap := i.app c hc
  refine ⟨?_, ?_, ?_, ?_, ?_, ?_, ?_⟩
  · intro j hj
    simp only [std, St.add, upd] at hj ⊢
    split
    · simp only; omega
    · exact i.app j (by omega)
  · intro k hk
    simp only [std, St.add] at hk ⊢
    rcases List.mem_append.mp hk with h | h
    · have := i.starts k h; omega
    · simp at h; omega
  · have : (std s c).nameless = s.nameless + 1 := by
      unfold St.nameless
      simp only [std, St.add]
      rw [List.filter_append, nameless_add i.starts]
      simp [upd]
    rw [this]
    simp only [std, St.add]
    omega
  · intro j hj hi
    simp only [std, St.add, upd] at hj hi ⊢
    split
    · next h => simp [h] at hi
    · next h => rw [if_neg h] at hi; exact i.idLt j (by omega) hi
  · intro a d hA hD hi he
    simp only [std, St.add, upd] at hA hD hi he
    by_cases h1 : a = s.n <;> by_cases h2 : d = s.n
    · omega
    · simp [h1] at hi
    · simp only [h1, h2, if_true, if_false] at hi he; exact absurd he hi
    · simp only [h1, h2, if_false] at hi he
      exact i.dist a d (by omega) (by omega) hi he
  · intro j hj hs
    simp only [std, St.add, upd] at hj hs ⊢
    split
    · next h => simp [h] at hs
    · next h => rw [if_neg h] at hs; exact i.named j (by omega) hs
  · intro j hj hs
    simp only [std, St.add, upd] at hj hs ⊢
    split
    · simp only; omega
    · next h => rw [if_neg h] at hs; exact i.std j (by omega) hs

theorem base_begin {s : St} {b k : Nat} {r : List Nat} (hb : b ≤ noId) (i : Base s b) (hs : s.starts = k :: r) : Base (begin_ s k r) b := by
  have hk : k < s.n := i.starts k (by simp [hs])
  have hcnt := i.cnt
  have hno : noId = 4294967295 := rfl
  unfold begin_
  simp only
  split
  · next hid =>
    have hnl : s.nameless = 1 + (r.filter fun k => (s.thr k).id == noId).length := by
      unfold St.nameless; rw [hs, List.filter_cons]; simp [hid]; omega
    have hcn : (s.cnt + 1) % 2 ^ 32 = s.cnt + 1 := by rw [Nat.mod_eq_of_lt]; rw [hno] at hb; omega
    refine ⟨?_, ?_, ?_, ?_, ?_, ?_, ?_⟩
    · intro j hj
      simp only [St.bump, upd] at hj ⊢
      split
      · next h => subst h; exact i.app j hj
      · exact i.app j hj
    · intro j hj
      exact i.starts j (by rw [hs]; exact List.mem_cons_of_mem _ hj)
    · have : (r.filter fun j => (upd s.thr k { s.thr k with id := s.cnt, started := true } j).id == noId).length ≤ (r.filter fun j => (s.thr j).id == noId).length := by
        rw [← List.countP_eq_length_filter, ← List.countP_eq_length_filter]
        apply List.countP_mono_left
        intro j _ h
        simp only [upd] at h
        split at h
        · next e => subst e; simp [hid]
        · exact h
      simp only [St.bump, St.nameless] at this ⊢
      omega
    · intro j hj hi
      simp only [St.bump, upd] at hj hi ⊢
      split
      · simp only; omega
      · next h => rw [if_neg h] at hi; have := i.idLt j hj hi; omega
    · intro a c hA hC hi he
      simp only [St.bump, upd] at hA hC hi he
      by_cases h1 : a = k <;> by_cases h2 : c = k
      · omega
      · simp only [h1, h2, if_true, if_false] at hi he
        have := i.idLt c hC (by rw [← he]; exact hi)
        omega
      · simp only [h1, h2, if_true, if_false] at hi he
        have := i.idLt a hA hi
        omega
      · simp only [h1, h2, if_false] at hi he
        exact i.dist a c hA hC hi he
    · intro j hj hs
      simp only [St.bump, upd] at hj hs ⊢
      split
      · simp only; omega
      · next h => rw [if_neg h] at hs; exact i.named j hj hs
    · intro j hj hs
      simp only [St.bump, upd] at hj hs ⊢
      split
      · next h => simp only; rw [if_pos h] at hs; subst h; exact i.std j hj hs
      · next h => rw [if_neg h] at hs; exact i.std j hj hs
  · next hid =>
    have hnl : s.nameless = (r.filter fun k => (s.thr k).id == noId).length := by
      unfold St.nameless; rw [hs, List.filter_cons]; simp [hid]
    refine ⟨?_, ?_, ?_, ?_, ?_, ?_, ?_⟩
    · intro j hj
      simp only [upd] at hj ⊢
      split
      · next h => subst h; exact i.app j hj
      · exact i.app j hj
    · intro j hj
      exact i.starts j (by rw [hs]; exact List.mem_cons_of_mem _ hj)
    · have : (r.filter fun j => (upd s.thr k { s.thr k with started := true } j).id == noId) = r.filter fun j => (s.thr j).id == noId := by
        apply List.filter_congr
        intro j _
        simp only [upd]
        split
        · next e => subst e; rfl
        · rfl
      have h2 : s.cnt + (r.filter fun j => (s.thr j).id == noId).length ≤ b := by omega
      simp only [St.nameless]
      rw [this]
      exact h2
    · intro j hj hi
      simp only [upd] at hj hi ⊢
      split
      · next h => rw [if_pos h] at hi; subst h; exact i.idLt j hj hi
      · next h => rw [if_neg h] at hi; exact i.idLt j hj hi
    · intro a c hA hC hi he
      simp only [upd] at hA hC hi he
      by_cases h1 : a = k <;> by_cases h2 : c = k
      · omega
      · simp only [h1, h2, if_true, if_false] at hi he
        rw [h1]; exact i.dist k c hk hC hi he
      · simp only [h1, h2, if_true, if_false] at hi he
        rw [h2]; exact i.dist a k hA hk hi he
      · simp only [h1, h2, if_false] at hi he
        exact i.dist a c hA hC hi he
    · intro j hj hs
      simp only [upd] at hj hs ⊢
      split
      · exact hid
      · next h => rw [if_neg h] at hs; exact i.named j hj hs
    · intro j hj hs
      simp only [upd] at hj hs ⊢
      split
      · next h => simp only; rw [if_pos h] at hs; subst h; exact i.std j hj hs
      · next h => rw [if_neg h] at hs; exact i.std j hj hs

/-- Actions that leave numbers alone. -/
theorem still {s s' : St} {a : Act} {o : Out} (h : step s a = some (s', o)) (ha : isBirth a = false) (hs : a ≠ .start) : Still s s' := by
  have hh : Still s { s with halted := true } := ⟨rfl, rfl, rfl, fun _ => rfl, fun _ => rfl, fun _ => rfl, fun _ => rfl⟩
  have h0 : Still s s := (calm_refl s).still
  unfold step at h
  split at h
  · cases h
  cases a <;> simp only at h <;> try (first | exact absurd ha (Bool.noConfusion) | exact absurd rfl hs)
  case self c => split at h <;> cases h; exact h0
  case join c i =>
    split at h
    · split at h
      · cases h; exact hh
      · simp only [Option.some.injEq] at h; exact (calm_join h).still
    · cases h
  case joinStd c k =>
    split at h
    · simp only [Option.some.injEq] at h; exact (calm_join h).still
    · cases h
  case detach c i =>
    split at h
    · split at h
      · cases h; exact hh
      · split at h
        · cases h; exact hh
        · cases h; exact still_upd rfl rfl rfl rfl
    · cases h
  case finish c r =>
    split at h
    · simp only [Option.some.injEq] at h; exact (calm_finish h).still
    · cases h
  case key c d => split at h <;> cases h; exact ⟨rfl, rfl, rfl, fun _ => rfl, fun _ => rfl, fun _ => rfl, fun _ => rfl⟩
  case keyDel c k => split at h <;> cases h; exact h0
  case set c k v => split at h <;> cases h; exact still_upd rfl rfl rfl rfl
  case get c k => split at h <;> cases h; exact h0
  case schedSet c m => split at h <;> cases h; exact still_upd rfl rfl rfl rfl
  case schedGet c => split at h <;> cases h; exact h0
  case affSet c i m =>
    split at h
    · split at h
      · cases h; exact h0
      · split at h
        · cases h; exact hh
        · cases h; exact still_upd rfl rfl rfl rfl
    · cases h
  case affGet c i =>
    split at h
    · split at h
      · cases h; exact h0
      · split at h <;> cases h
        · exact hh
        · exact h0
    · cases h

theorem base {s : St} {h : List (Act × Out)} (r : Run s h) (hb : births h ≤ noId) : Base s (births h) := by
  induction r with
  | init =>
    refine ⟨?_, ?_, ?_, ?_, ?_, ?_, ?_⟩ <;> simp [St.init, births, St.nameless]
  | @step s s' h a o _ hst ih =>
    rw [births_snoc] at hb ⊢
    simp only at hb ⊢
    have i := ih (by omega)
    by_cases ha : isBirth a = true
    · rw [ha] at hb ⊢
      simp only [Bool.toNat_true] at hb ⊢
      cases a <;> simp only [isBirth, Bool.false_eq_true] at ha
      case launch rk =>
        unfold step at hst; split at hst
        · cases hst
        · cases hst
          exact base_new hb i (Nat.le_refl _) rfl rfl (Or.inl rfl) _ _
      case elsewhere =>
        unfold step at hst; split at hst
        · cases hst
        · cases hst
          have hno : noId = 4294967295 := rfl
          have hc := i.cnt
          have hcn : (s.cnt + 1) % 2 ^ 32 = s.cnt + 1 := by rw [Nat.mod_eq_of_lt]; rw [hno] at hb; omega
          refine ⟨i.app, i.starts, ?_, ?_, i.dist, i.named, i.std⟩
          · simp only [St.bump, St.nameless] at hc ⊢; omega
          · intro j hj hi; have := i.idLt j hj hi; simp only [St.bump]; omega
      case create c attr =>
        have hr := runs_lt (actor_runs hst rfl)
        unfold step at hst; split at hst
        · cases hst
        · simp only at hst
          split at hst
          · cases hst
            have := i.app c hr
            exact base_new hb i (by simp only; omega) rfl rfl (Or.inr rfl) _ _
          · cases hst
      case std c =>
        have hr := runs_lt (actor_runs hst rfl)
        unfold step at hst; split at hst
        · cases hst
        · simp only at hst
          split at hst
          · cases hst; exact base_std i hr
          · cases hst
    · simp only [Bool.not_eq_true] at ha
      rw [ha] at hb ⊢
      simp only [Bool.toNat_false, Nat.add_zero] at hb ⊢
      by_cases hs : a = .start
      · subst hs
        unfold step at hst; split at hst
        · cases hst
        · simp only at hst
          split at hst
          · cases hst
          · next k r hk => cases hst; exact base_begin hb i hk
      · exact (still hst ha hs).base (Nat.le_refl _) i

/-! ## What the history says about objects -/

/-- Thread `k` was created under the number `i` by thread `c`. -/
def Made (h : List (Act × Out)) (k i c : Nat) : Prop := ∃ attr, (Act.create c attr, Out.made k i) ∈ h

theorem Made.snoc {h : List (Act × Out)} {k i c : Nat} (e : Act × Out) (m : Made h k i c) : Made (h ++ [e]) k i c := by
  obtain ⟨attr, hm⟩ := m
  exact ⟨attr, List.mem_append_left _ hm⟩

theorem births_le {h : List (Act × Out)} {e : Act × Out} (hb : births (h ++ [e]) ≤ noId) : births h ≤ noId := by
  rw [births_snoc] at hb; omega

theorem frame_n {s s' : St} {a : Act} {o : Out} (h : step s a = some (s', o)) : s.n ≤ s'.n := by
  rw [(frame h).n]; omega

/-- Threads that were created and threads that asked for their numbers. -/
structure Seen (s : St) (h : List (Act × Out)) : Prop where
  made : ∀ k i c, Made h k i c → k < s.n ∧ c < s.n ∧ (s.thr k).id = i ∧ i ≠ noId ∧ (s.thr k).app = (s.thr c).app ∧ (s.thr k).app ≠ k
  self : ∀ c j, (Act.self c, Out.num j) ∈ h → c < s.n ∧ (s.thr c).id = j ∧ j ≠ noId

theorem runs_started {s : St} {c : Nat} (h : s.runs c = true) : (s.thr c).started = true := by
  unfold St.runs at h; simp only [Bool.and_eq_true] at h; exact h.1.1.1.2

theorem runs_done {s : St} {c : Nat} (h : s.runs c = true) : (s.thr c).done = false := by
  unfold St.runs at h; simp only [Bool.and_eq_true, Bool.not_eq_true'] at h; exact h.1.1.2

/-- The step of a `pthread_create`. -/
theorem create_step {s s' : St} {c : Nat} {attr : Option (Bool × BitVec 64)} {o : Out} (h : step s (.create c attr) = some (s', o)) :
    s' = create s c attr ∧ o = .made s.n s.cnt := by
  unfold step at h
  split at h
  · cases h
  · simp only at h
    split at h
    · cases h; exact ⟨rfl, rfl⟩
    · cases h

theorem seen {s : St} {h : List (Act × Out)} (r : Run s h) (hb : births h ≤ noId) : Seen s h := by
  induction r with
  | init => exact ⟨fun k i c ⟨_, m⟩ => (by cases m), fun c j m => (by cases m)⟩
  | @step s s' h a o r hst ih =>
    have hb' := births_le hb
    have i := ih hb'
    have B := base r hb'
    have F := frame hst
    have hn := frame_n hst
    constructor
    · intro k i' c ⟨attr, m⟩
      rcases List.mem_append.mp m with m | m
      · obtain ⟨h1, h2, h3, h4, h5, h6⟩ := i.made k i' c ⟨attr, m⟩
        refine ⟨by omega, by omega, ?_, h4, ?_, ?_⟩
        · rw [F.id k h1 (by rw [h3]; exact h4)]; exact h3
        · rw [F.app k h1, F.app c h2]; exact h5
        · rw [F.app k h1]; exact h6
      · simp only [List.mem_singleton] at m
        cases m
        have hr := actor_runs hst rfl
        obtain ⟨rfl, ho⟩ := create_step hst
        cases ho
        have hc := runs_lt hr
        have := B.app c hc
        have hcnt := B.cnt
        rw [births_snoc] at hb
        simp only [isBirth, Bool.toNat_true] at hb
        simp only [create, St.add, St.bump, upd, if_true]
        refine ⟨by omega, by omega, trivial, by omega, ?_, by omega⟩
        rw [if_neg (by omega)]
    · intro c j m
      rcases List.mem_append.mp m with m | m
      · obtain ⟨h1, h2, h3⟩ := i.self c j m
        exact ⟨by omega, by rw [F.id c h1 (by rw [h2]; exact h3)]; exact h2, h3⟩
      · simp only [List.mem_singleton] at m
        cases m
        have hr := actor_runs hst rfl
        unfold step at hst
        split at hst
        · cases hst
        · simp only [hr, if_true, Option.some.injEq, Prod.mk.injEq, Out.num.injEq] at hst
          obtain ⟨rfl, rfl⟩ := hst
          exact ⟨runs_lt hr, rfl, B.named c (runs_lt hr) (runs_started hr)⟩

/-! ## Tables -/

/-- Tables of threads and joins that wait. -/
structure Tabs (s : St) (h : List (Act × Out)) : Prop where
  sub : ∀ p i k, look (s.subs p) i = some k → (s.thr k).app = p ∧ ∃ c, Made h k i c
  wait : ∀ c k via, (c, k, via) ∈ s.waits → c < s.n ∧ k < s.n ∧ (s.thr k).app ≠ k ∧
    ∀ i, via = some i → (s.thr k).app = (s.thr c).app ∧ ∃ c0, Made h k i c0

theorem look_without {subs : Nat → List (Nat × Nat)} {p p' i k : Nat} {via : Option Nat} (h : look (without subs p via p') i = some k) :
    look (subs p') i = some k := by
  unfold without at h
  split at h
  · simp only [upd] at h
    split at h
    · next e =>
      subst e
      rw [look_del] at h
      split at h
      · cases h
      · exact h
    · exact h
  · exact h

/-- What remains of tables and joins that wait after a join or an end. -/
theorem less_after {s s' : St} {p k : Nat} {via : Option Nat} (h : afterJoin s p k via = some s') :
    (∀ p i k, look (s'.subs p) i = some k → look (s.subs p) i = some k) ∧ s'.waits = s.waits := by
  obtain ⟨_, rfl⟩ := afterJoin_some h
  exact ⟨fun p i k hh => look_without hh, rfl⟩

theorem less_finish {s s' : St} {c : Nat} {o : Out} (h : finish s c = (s', o)) :
    (∀ p i k, look (s'.subs p) i = some k → look (s.subs p) i = some k) ∧ (∀ w, w ∈ s'.waits → w ∈ s.waits) := by
  unfold finish at h
  simp only at h
  split at h
  · cases h; exact ⟨fun _ _ _ x => x, fun _ x => x⟩
  · next s4 hw =>
    have h1 : (∀ p i k, look (s4.subs p) i = some k → look (s.subs p) i = some k) ∧ (∀ w, w ∈ s4.waits → w ∈ s.waits) := by
      have h2 : ∀ (t : Thr) (own : Bool) (s1 : St), s1.subs = s.subs → s1.waits = s.waits →
          (∀ p i k, look ((if (t.detached && !own) = true then { s1 with subs := upd s1.subs t.app (del (s1.subs t.app) t.id) } else s1).subs p) i = some k → look (s.subs p) i = some k) ∧
          (if (t.detached && !own) = true then { s1 with subs := upd s1.subs t.app (del (s1.subs t.app) t.id) } else s1).waits = s.waits := by
        intro t own s1 hs1 hs2
        split
        · refine ⟨?_, hs2⟩
          intro p i k hh
          simp only [hs1] at hh
          exact look_without (via := some t.id) hh
        · exact ⟨fun p i k hh => hs1 ▸ hh, hs2⟩
      obtain ⟨g1, g2⟩ := h2 (s.thr c) (decide ((s.thr c).app = c)) { s with thr := upd s.thr c { s.thr c with done := true } } rfl rfl
      rcases wake_some hw with ⟨_, rfl⟩ | ⟨d, x, via, _, ha⟩
      · refine ⟨g1, ?_⟩
        intro w hw'
        have := (List.mem_filter.mp hw').1
        rw [g2] at this; exact this
      · obtain ⟨l1, l2⟩ := less_after ha
        refine ⟨fun p i k hh => g1 p i k (l1 p i k hh), ?_⟩
        intro w hw'
        rw [l2] at hw'
        have := (List.mem_filter.mp hw').1
        rw [g2] at this; exact this
    split at h
    · split at h
      · next s5 hf =>
        cases h
        unfold free at hf
        split at hf
        · cases hf
        · cases hf; exact h1
      · cases h; exact ⟨fun _ _ _ x => x, fun _ x => x⟩
    · cases h; exact h1

theorem less_join {s s' : St} {c k : Nat} {via : Option Nat} {o : Out} (h : joinThread s c k via = (s', o)) :
    (∀ p i k, look (s'.subs p) i = some k → look (s.subs p) i = some k) ∧ (∀ w, w ∈ s'.waits → w ∈ s.waits ∨ w = (c, k, via)) := by
  unfold joinThread at h
  split at h
  · cases h; exact ⟨fun _ _ _ x => x, fun _ x => Or.inl x⟩
  · split at h
    · split at h
      · next s1 hs =>
        cases h
        obtain ⟨l1, l2⟩ := less_after hs
        exact ⟨l1, fun w hw => Or.inl (l2 ▸ hw)⟩
      · cases h; exact ⟨fun _ _ _ x => x, fun _ x => Or.inl x⟩
    · cases h
      refine ⟨fun _ _ _ x => x, fun w hw => ?_⟩
      rcases List.mem_append.mp hw with h | h
      · exact Or.inl h
      · simp at h; exact Or.inr h

/-- Acts other than creations, joins and ends. -/
def apart : Act → Bool
  | .create _ _ | .join _ _ | .joinStd _ _ | .finish _ _ => false
  | _ => true

/-- Acts that leave tables and waiting joins alone. -/
theorem tabs_same {s s' : St} {a : Act} {o : Out} (h : step s a = some (s', o))
    (ha : apart a = true) : s'.subs = s.subs ∧ s'.waits = s.waits := by
  unfold step at h
  split at h
  · cases h
  cases a <;> simp only [apart, Bool.false_eq_true] at h ha
  case launch r => cases h; exact ⟨rfl, rfl⟩
  case elsewhere => cases h; exact ⟨rfl, rfl⟩
  case start =>
    split at h
    · cases h
    · cases h; unfold begin_; simp only; split <;> exact ⟨rfl, rfl⟩
  case detach c i =>
    split at h
    · split at h
      · cases h; exact ⟨rfl, rfl⟩
      · split at h <;> cases h <;> exact ⟨rfl, rfl⟩
    · cases h
  case affSet c i m =>
    split at h
    · split at h
      · cases h; exact ⟨rfl, rfl⟩
      · split at h <;> cases h <;> exact ⟨rfl, rfl⟩
    · cases h
  case affGet c i =>
    split at h
    · split at h
      · cases h; exact ⟨rfl, rfl⟩
      · split at h <;> cases h <;> exact ⟨rfl, rfl⟩
    · cases h
  all_goals (split at h <;> cases h; exact ⟨rfl, rfl⟩)

theorem tabs {s : St} {h : List (Act × Out)} (r : Run s h) (hb : births h ≤ noId) : Tabs s h := by
  induction r with
  | init => exact ⟨fun p i k m => (by cases m), fun c k via m => (by cases m)⟩
  | @step s s' h a o r hst ih =>
    have hb' := births_le hb
    have i := ih hb'
    have B := base r hb'
    have S := seen r hb'
    have F := frame hst
    have hn := frame_n hst
    -- old entries stay true
    have osub : ∀ p i' k, look (s.subs p) i' = some k → (s'.thr k).app = p ∧ ∃ c, Made (h ++ [(a, o)]) k i' c := by
      intro p i' k hl
      obtain ⟨h1, c, m⟩ := i.sub p i' k hl
      have hk := (S.made k i' c m).1
      exact ⟨by rw [F.app k hk]; exact h1, c, m.snoc _⟩
    have owait : ∀ c k via, (c, k, via) ∈ s.waits → c < s'.n ∧ k < s'.n ∧ (s'.thr k).app ≠ k ∧ ∀ i, via = some i → (s'.thr k).app = (s'.thr c).app ∧ ∃ c0, Made (h ++ [(a, o)]) k i c0 := by
      intro c k via hw
      obtain ⟨h1, h2, h3, h4⟩ := i.wait c k via hw
      refine ⟨by omega, by omega, by rw [F.app k h2]; exact h3, ?_⟩
      intro j hj
      obtain ⟨g1, c0, g2⟩ := h4 j hj
      exact ⟨by rw [F.app k h2, F.app c h1]; exact g1, c0, g2.snoc _⟩
    by_cases hq : apart a = true
    · obtain ⟨e1, e2⟩ := tabs_same hst hq
      exact ⟨by rw [e1]; exact osub, by rw [e2]; exact owait⟩
    · cases a <;> simp only [apart, not_true_eq_false] at hq
      case create c attr =>
        have hr := actor_runs hst rfl
        have hc := runs_lt hr
        obtain ⟨he, ho⟩ := create_step hst
        refine ⟨?_, ?_⟩
        · intro p i' k hl
          rw [he] at hl
          simp only [create, St.add, St.bump, upd] at hl
          split at hl
          · next e =>
            rw [look_put'] at hl
            split at hl
            · next e2 =>
              simp only [Option.some.injEq] at hl
              subst hl; subst e2
              have m : Made (h ++ [(Act.create c attr, o)]) s.n s.cnt c := ⟨attr, by simp [ho]⟩
              refine ⟨?_, c, m⟩
              rw [he, e]; simp [create, St.add, St.bump, upd]
            · rw [← e] at hl; exact osub p i' k hl
          · exact osub p i' k hl
        · intro c' k via hw
          rw [he] at hw
          exact owait c' k via hw
      case join c j =>
        have hr := actor_runs hst rfl
        have hc := runs_lt hr
        unfold step at hst
        split at hst
        · cases hst
        · simp only [hr, if_true] at hst
          split at hst
          · cases hst; exact ⟨osub, owait⟩
          · next k0 hl0 =>
            simp only [Option.some.injEq] at hst
            obtain ⟨l1, l2⟩ := less_join hst
            refine ⟨fun p i' k hl => osub p i' k (l1 p i' k hl), ?_⟩
            intro c' k via hw
            rcases l2 _ hw with hw | hw
            · exact owait c' k via hw
            · cases hw
              obtain ⟨h1, c0, m⟩ := i.sub _ _ _ hl0
              obtain ⟨m1, m2, m3, m4, m5, m6⟩ := S.made _ _ _ m
              refine ⟨by omega, by omega, by rw [F.app _ m1]; exact m6, ?_⟩
              intro j' hj'
              cases hj'
              exact ⟨by rw [F.app _ m1, F.app _ hc]; exact h1, c0, m.snoc _⟩
      case joinStd c k0 =>
        have hr := actor_runs hst rfl
        have hc := runs_lt hr
        unfold step at hst
        split at hst
        · cases hst
        · simp only at hst
          split at hst
          · next hcond =>
            simp only [Bool.and_eq_true, decide_eq_true_eq] at hcond
            simp only [Option.some.injEq] at hst
            obtain ⟨l1, l2⟩ := less_join hst
            refine ⟨fun p i' k hl => osub p i' k (l1 p i' k hl), ?_⟩
            intro c' k via hw
            rcases l2 _ hw with hw | hw
            · exact owait c' k via hw
            · cases hw
              have hk := hcond.2.1
              refine ⟨by omega, by omega, by rw [F.app _ hk]; exact B.std _ hk hcond.2.2, ?_⟩
              intro j' hj'; cases hj'
          · cases hst
      case finish c rv =>
        have hr := actor_runs hst rfl
        unfold step at hst
        split at hst
        · cases hst
        · simp only at hst
          split at hst
          · simp only [Option.some.injEq] at hst
            obtain ⟨l1, l2⟩ := less_finish hst
            exact ⟨fun p i' k hl => osub p i' k (l1 p i' k hl), fun c' k via hw => owait c' k via (l2 _ hw)⟩
          · cases hst

/-! ## Ends and joins -/

/-- The joins that wait for thread `k`. -/
def St.waitsFor (s : St) (k : Nat) : Nat := (s.waits.filter fun w => w.2.1 == k).length

/-- The state in which the joins that wait for `c` return. -/
def midway (s : St) (c : Nat) : St :=
  { s with
    thr := upd s.thr c { s.thr c with done := true }
    subs := if ((s.thr c).detached && !decide ((s.thr c).app = c)) = true then upd s.subs (s.thr c).app (del (s.subs (s.thr c).app) (s.thr c).id) else s.subs
    waits := s.waits.filter fun w => w.2.1 != c }

theorem finish_eq (s : St) (c : Nat) : finish s c =
    (match wake (midway s c) c (s.waits.filter fun w => w.2.1 == c) with
    | none => ({ s with halted := true }, .ub c)
    | some s4 =>
      if ((s.thr c).detached || decide ((s.thr c).app = c)) = true then
        match free s4 c with
        | some s5 => (s5, .ended ((s.waits.filter fun w => w.2.1 == c).map (·.1)) [])
        | none => ({ s with halted := true }, .ub c)
      else (s4, .ended ((s.waits.filter fun w => w.2.1 == c).map (·.1)) [])) := by
  unfold finish midway
  by_cases h : ((s.thr c).detached && !decide ((s.thr c).app = c)) = true
  · simp only [h, if_true]; rfl
  · simp only [h, if_false]; rfl

/-- What the end of a thread does. -/
theorem finish_spec {s s' : St} {c : Nat} {o : Out} (h : finish s c = (s', o)) (hf : (s.thr c).freed = false) :
    (o = .ub c ∧ s' = { s with halted := true } ∧ (2 ≤ s.waitsFor c ∨ (1 ≤ s.waitsFor c ∧ ((s.thr c).detached = true ∨ (s.thr c).app = c)))) ∨
    ((∃ js, o = .ended js []) ∧ s'.waits = s.waits.filter (fun w => w.2.1 != c) ∧ (∀ j, j ≠ c → s'.thr j = s.thr j) ∧ (s'.thr c).done = true ∧
      ((s'.thr c).freed = true → 1 ≤ s.waitsFor c ∨ (s.thr c).detached = true ∨ (s.thr c).app = c) ∧
      (∀ p i k, look (s.subs p) i = some k → look (s'.subs p) i = some k ∨
        (p = (s.thr c).app ∧ i = (s.thr c).id ∧ (s.thr c).detached = true ∧ (s.thr c).app ≠ c) ∨ ∃ d, (d, c, some i) ∈ s.waits ∧ p = (s.thr d).app)) := by
  rw [finish_eq] at h
  have hmf : ((midway s c).thr c).freed = false := by simp [midway, upd, hf]
  have hmsub : ∀ p i k, look (s.subs p) i = some k → look ((midway s c).subs p) i = some k ∨
        (p = (s.thr c).app ∧ i = (s.thr c).id ∧ (s.thr c).detached = true ∧ (s.thr c).app ≠ c) := by
    intro p i k hl
    unfold midway
    simp only
    split
    · next hd =>
      simp only [Bool.and_eq_true, Bool.not_eq_true', decide_eq_false_iff_not] at hd
      simp only [upd]
      split
      · next e =>
        rw [look_del]
        by_cases hi : (s.thr c).id = i
        · right; exact ⟨e, hi.symm, hd.1, hd.2⟩
        · left; rw [if_neg hi, ← e]; exact hl
      · left; exact hl
    · left; exact hl
  have hws : s.waitsFor c = (s.waits.filter fun w => w.2.1 == c).length := rfl
  cases hw : wake (midway s c) c (s.waits.filter fun w => w.2.1 == c) with
  | none =>
    simp only [hw, Prod.mk.injEq] at h
    left
    refine ⟨h.2.symm, h.1.symm, Or.inl ?_⟩
    rw [hws]
    match hl : (s.waits.filter fun w => w.2.1 == c) with
    | [] => rw [hl] at hw; simp [wake] at hw
    | [(d, x, via)] =>
      rw [hl] at hw
      simp [wake, afterJoin, free, hmf] at hw
    | _ :: _ :: _ => rw [hl]; simp
  | some s4 =>
    simp only [hw] at h
    rcases wake_some hw with ⟨hnil, h4⟩ | ⟨d, x, via, hone, ha⟩
    · -- nobody waited
      by_cases hd : ((s.thr c).detached || decide ((s.thr c).app = c)) = true
      · simp only [hd, if_true, free, h4, hmf, Bool.false_eq_true, if_false, Prod.mk.injEq] at h
        obtain ⟨rfl, rfl⟩ := h
        right
        refine ⟨⟨_, rfl⟩, rfl, ?_, by simp [upd, midway], ?_, ?_⟩
        · intro j hj; simp [upd, midway, hj]
        · intro _; right; simpa using hd
        · intro p i k hl
          rcases hmsub p i k hl with h1 | h1
          · exact Or.inl h1
          · exact Or.inr (Or.inl h1)
      · simp only [hd, if_false, h4, Prod.mk.injEq, Bool.false_eq_true] at h
        obtain ⟨rfl, rfl⟩ := h
        right
        refine ⟨⟨_, rfl⟩, rfl, ?_, by simp [upd, midway], ?_, ?_⟩
        · intro j hj; simp [upd, midway, hj]
        · intro hh; rw [hmf] at hh; cases hh
        · intro p i k hl
          rcases hmsub p i k hl with h1 | h1
          · exact Or.inl h1
          · exact Or.inr (Or.inl h1)
    · obtain ⟨_, h4⟩ := afterJoin_some ha
      have h1 : s.waitsFor c = 1 := by rw [hws, hone]; rfl
      have h4f : (s4.thr c).freed = true := by rw [h4]; simp [upd]
      by_cases hd : ((s.thr c).detached || decide ((s.thr c).app = c)) = true
      · simp only [hd, if_true, free, h4f, Prod.mk.injEq] at h
        left
        refine ⟨h.2.symm, h.1.symm, Or.inr ⟨by omega, by simpa using hd⟩⟩
      · simp only [hd, if_false, Prod.mk.injEq, Bool.false_eq_true] at h
        obtain ⟨rfl, rfl⟩ := h
        right
        refine ⟨⟨_, rfl⟩, by rw [h4]; rfl, ?_, by rw [h4]; simp [upd, midway], fun _ => Or.inl (by omega), ?_⟩
        · intro j hj; rw [h4]; simp [upd, midway, hj]
        · intro p i k hl
          have hdw : (d, x, via) ∈ s.waits.filter fun w => w.2.1 == c := by rw [hone]; simp
          have hdm := List.mem_filter.mp hdw
          have hx : x = c := by simpa using hdm.2
          subst hx
          have happ : ((midway s x).thr d).app = (s.thr d).app := by
            unfold midway; simp only [upd]; split
            · next e => rw [e]
            · rfl
          rcases hmsub p i k hl with h1 | h1
          · rw [h4]
            simp only [without, happ]
            cases via with
            | none => exact Or.inl h1
            | some i0 =>
              simp only [upd]
              by_cases hp : p = (s.thr d).app
              · by_cases hi : i0 = i
                · subst hi; exact Or.inr (Or.inr ⟨d, hdm.1, hp⟩)
                · left; rw [if_pos hp, look_del, if_neg hi, ← hp]; exact h1
              · left; rw [if_neg hp]; exact h1
          · exact Or.inr (Or.inl h1)

/-- What a join does. -/
theorem join_spec {s s' : St} {c k : Nat} {via : Option Nat} {o : Out} (h : joinThread s c k via = (s', o)) :
    ((s.thr k).freed = true ∧ o = .ub k ∧ s' = { s with halted := true }) ∨
    ((s.thr k).freed = false ∧ (s.thr k).done = true ∧ o = .joined k none ∧ s'.waits = s.waits ∧ (∀ j, j ≠ k → s'.thr j = s.thr j) ∧
      (s'.thr k).done = true ∧ (s'.thr k).detached = (s.thr k).detached ∧ s'.subs = without s.subs (s.thr c).app via) ∨
    ((s.thr k).freed = false ∧ (s.thr k).done = false ∧ o = .blocked k ∧ s' = { s with waits := s.waits ++ [(c, k, via)] }) := by
  unfold joinThread at h
  cases hf : (s.thr k).freed with
  | true => simp only [hf, if_true, Prod.mk.injEq] at h; exact Or.inl ⟨rfl, h.2.symm, h.1.symm⟩
  | false =>
    simp only [hf, Bool.false_eq_true, if_false] at h
    cases hd : (s.thr k).done with
    | true =>
      simp only [hd, if_true] at h
      split at h
      · next s1 hs =>
        simp only [Prod.mk.injEq] at h
        obtain ⟨rfl, rfl⟩ := h
        obtain ⟨_, rfl⟩ := afterJoin_some hs
        refine Or.inr (Or.inl ⟨rfl, rfl, rfl, rfl, ?_, ?_, ?_, rfl⟩)
        · intro j hj; simp [upd, hj]
        · simp [upd, hd]
        · simp [upd]
      · next hs =>
        simp [afterJoin, free, hf] at hs
    | false =>
      simp only [hd, Bool.false_eq_true, if_false, Prod.mk.injEq] at h
      exact Or.inr (Or.inr ⟨rfl, rfl, h.2.symm, h.1.symm⟩)

/-- What is left alone by acts other than joins, detachments and ends. -/
def aloof : Act → Bool
  | .join _ _ | .joinStd _ _ | .detach _ _ | .finish _ _ => false
  | _ => true

theorem aloof_same {s s' : St} {a : Act} {o : Out} (h : step s a = some (s', o)) (ha : aloof a = true) :
    s'.waits = s.waits ∧ ∀ j, j < s.n → (s'.thr j).done = (s.thr j).done ∧ (s'.thr j).freed = (s.thr j).freed ∧ (s'.thr j).detached = (s.thr j).detached := by
  have h0 : ∀ j, j < s.n → (s.thr j).done = (s.thr j).done ∧ (s.thr j).freed = (s.thr j).freed ∧ (s.thr j).detached = (s.thr j).detached := fun _ _ => ⟨rfl, rfl, rfl⟩
  have h1 : ∀ k t, t.done = (s.thr k).done → t.freed = (s.thr k).freed → t.detached = (s.thr k).detached → ∀ j, j < s.n → ((upd s.thr k t j).done = (s.thr j).done ∧ (upd s.thr k t j).freed = (s.thr j).freed ∧ (upd s.thr k t j).detached = (s.thr j).detached) := by
    intro k t t1 t2 t3 j _
    simp only [upd]; split
    · next e => subst e; exact ⟨t1, t2, t3⟩
    · exact ⟨rfl, rfl, rfl⟩
  have h2 : ∀ t, ∀ j, j < s.n → ((upd s.thr s.n t j).done = (s.thr j).done ∧ (upd s.thr s.n t j).freed = (s.thr j).freed ∧ (upd s.thr s.n t j).detached = (s.thr j).detached) := by
    intro t j hj
    rw [upd_ne _ _ (by omega)]; exact ⟨rfl, rfl, rfl⟩
  unfold step at h
  split at h
  · cases h
  cases a <;> simp only [aloof, Bool.false_eq_true] at h ha
  case launch r => cases h; exact ⟨rfl, h2 _⟩
  case elsewhere => cases h; exact ⟨rfl, h0⟩
  case create c attr => split at h <;> cases h; exact ⟨rfl, h2 _⟩
  case std c => split at h <;> cases h; exact ⟨rfl, h2 _⟩
  case start =>
    split at h
    · cases h
    · cases h; unfold begin_; simp only; split <;> exact ⟨rfl, h1 _ _ rfl rfl rfl⟩
  case affSet c i m =>
    split at h
    · split at h
      · cases h; exact ⟨rfl, h0⟩
      · split at h
        · cases h; exact ⟨rfl, h0⟩
        · cases h; exact ⟨rfl, h1 _ _ rfl rfl rfl⟩
    · cases h
  case affGet c i =>
    split at h
    · split at h
      · cases h; exact ⟨rfl, h0⟩
      · split at h <;> cases h <;> exact ⟨rfl, h0⟩
    · cases h
  case self c => split at h <;> cases h; exact ⟨rfl, h0⟩
  case key c d => split at h <;> cases h; exact ⟨rfl, h0⟩
  case keyDel c k => split at h <;> cases h; exact ⟨rfl, h0⟩
  case get c k => split at h <;> cases h; exact ⟨rfl, h0⟩
  case schedGet c => split at h <;> cases h; exact ⟨rfl, h0⟩
  case set c k v => split at h <;> cases h; exact ⟨rfl, h1 _ _ rfl rfl rfl⟩
  case schedSet c m => split at h <;> cases h; exact ⟨rfl, h1 _ _ rfl rfl rfl⟩

/-- Ends, deletions and detachments. -/
structure Ends (s : St) (h : List (Act × Out)) : Prop where
  wt : ∀ k, k < s.n → (s.thr k).app ≠ k → s.waitsFor k + (s.thr k).detached.toNat ≤ weight k h
  fr : ∀ k, k < s.n → (s.thr k).freed = true → (s.thr k).done = true ∧ ((s.thr k).app ≠ k → 1 ≤ weight k h)
  done : ∀ k, k < s.n → ((s.thr k).done = true ↔ ∃ e ∈ h, ends k e = true)
  lt : ∀ k e, e ∈ h → ends k e = true → k < s.n

/-- The mask of a thread made by this. -/
def actMask : Act → BitVec 64
  | .create _ attr => bornMask attr
  | _ => allCores

/-- A thread that was just made. -/
theorem newborn {s s' : St} {a : Act} {o : Out} (h : step s a = some (s', o)) (hn : s'.n ≠ s.n) :
    (s'.thr s.n).done = false ∧ (s'.thr s.n).freed = false ∧ (s'.thr s.n).tls = [] ∧ o = .made s.n (s'.thr s.n).id ∧
    (s'.thr s.n).mask = actMask a ∧
    ((s'.thr s.n).app ≠ s.n → (s'.thr s.n).detached = true → bornDetached s.n (a, o) = true) := by
  have F := (frame h).n
  unfold step at h
  split at h
  · cases h
  cases a <;> simp only [Nat.add_zero] at F <;> try (exact absurd F hn)
  case launch r => cases h; simp [launch, St.add, St.bump, upd, actMask]
  case create c attr =>
    simp only at h
    split at h
    · cases h
      refine ⟨?_, ?_, ?_, ?_, ?_, ?_⟩ <;> simp only [create, St.add, St.bump, upd, if_true]
      · cases attr <;> rfl
      · intro _ hd
        cases attr with
        | none => cases hd
        | some p => obtain ⟨d, m⟩ := p; simp only at hd; subst hd; simp [bornDetached]
    · cases h
  case std c =>
    simp only at h
    split at h
    · cases h; simp [std, St.add, upd, actMask]
    · cases h

theorem ends_snoc {k : Nat} {h : List (Act × Out)} {e : Act × Out} (he : ends k e = false) :
    (∃ x ∈ h ++ [e], ends k x = true) ↔ ∃ x ∈ h, ends k x = true := by
  constructor
  · intro ⟨x, hx, hk⟩
    rcases List.mem_append.mp hx with hx | hx
    · exact ⟨x, hx, hk⟩
    · simp only [List.mem_singleton] at hx; subst hx; rw [he] at hk; cases hk
  · intro ⟨x, hx, hk⟩; exact ⟨x, List.mem_append_left _ hx, hk⟩

theorem lt_snoc {s s' : St} {h : List (Act × Out)} {e : Act × Out} (hn : s.n ≤ s'.n) (he : ∀ k, ends k e = true → k < s.n)
    (hl : ∀ k x, x ∈ h → ends k x = true → k < s.n) : ∀ k x, x ∈ h ++ [e] → ends k x = true → k < s'.n := by
  intro k x hx hk
  rcases List.mem_append.mp hx with hx | hx
  · have := hl k x hx hk; omega
  · simp only [List.mem_singleton] at hx; subst hx; have := he k hk; omega

/-- Joins. -/
theorem ends_join {s s' : St} {h : List (Act × Out)} {c k : Nat} {via : Option Nat} {a : Act} {o : Out} (hj : joinThread s c k via = (s', o))
    (hname : names k (a, o) = true) (hend : ∀ j, ends j (a, o) = false) (hn : s'.n = s.n)
    (happ : ∀ j, j < s.n → (s'.thr j).app = (s.thr j).app) (i : Ends s h) : Ends s' (h ++ [(a, o)]) := by
  have hlt := lt_snoc (s' := s') (e := (a, o)) (by omega) (fun k hk => by rw [hend] at hk; cases hk) i.lt
  have hw : ∀ j, weight j h + (if j = k then 1 else 0) ≤ weight j (h ++ [(a, o)]) := by
    intro j
    split
    · next e => subst e; exact weight_names h hname
    · exact weight_mono j h _
  rcases join_spec hj with ⟨_, _, rfl⟩ | ⟨hf, hd, _, hwt, hthr, hd', hdt, _⟩ | ⟨hf, hd, _, rfl⟩
  · refine ⟨?_, ?_, ?_, hlt⟩
    · intro j hj' ha; have := i.wt j hj' ha; have := hw j; simp only [St.waitsFor] at *; omega
    · intro j hj' hfr; obtain ⟨g1, g2⟩ := i.fr j hj' hfr; exact ⟨g1, fun ha => by have := g2 ha; have := hw j; omega⟩
    · intro j hj'; rw [ends_snoc (hend j)]; exact i.done j hj'
  · refine ⟨?_, ?_, ?_, hlt⟩
    · intro j hj' ha
      rw [hn] at hj'
      rw [happ j hj'] at ha
      have h1 := i.wt j hj' ha
      have h2 := hw j
      have : (s'.thr j).detached = (s.thr j).detached := by
        by_cases e : j = k
        · subst e; exact hdt
        · rw [hthr j e]
      rw [this]
      simp only [St.waitsFor, hwt] at *
      omega
    · intro j hj' hfr
      rw [hn] at hj'
      by_cases e : j = k
      · subst e; exact ⟨hd', fun _ => by have := hw j; simp at this; omega⟩
      · rw [hthr j e] at hfr ⊢
        obtain ⟨g1, g2⟩ := i.fr j hj' hfr
        exact ⟨g1, fun ha => by have := g2 ha; have := hw j; omega⟩
    · intro j hj'
      rw [hn] at hj'
      rw [ends_snoc (hend j), ← i.done j hj']
      by_cases e : j = k
      · subst e; rw [hd, hd']
      · rw [hthr j e]
  · refine ⟨?_, ?_, ?_, hlt⟩
    · intro j hj' ha
      have h1 := i.wt j hj' ha
      have h2 := hw j
      simp only [St.waitsFor, List.filter_append, List.length_append] at *
      by_cases e : j = k
      · subst e; simp at h2 ⊢; omega
      · have : (List.filter (fun w : Nat × Nat × Option Nat => w.2.1 == j) [(c, k, via)]) = [] := by simp [Ne.symm e]
        rw [this]; simp only [if_neg e, List.length_nil] at *; omega
    · intro j hj' hfr; obtain ⟨g1, g2⟩ := i.fr j hj' hfr; exact ⟨g1, fun ha => by have := g2 ha; have := hw j; omega⟩
    · intro j hj'; rw [ends_snoc (hend j)]; exact i.done j hj'

theorem join_names {s s' : St} {c k : Nat} {via : Option Nat} {o : Out} (h : joinThread s c k via = (s', o)) (i : Nat) :
    (names k (.join c i, o) = true ∧ ∀ j, ends j (.join c i, o) = false) ∧ (names k (.joinStd c i, o) = true ∧ ∀ j, ends j (.joinStd c i, o) = false) := by
  rcases join_spec h with ⟨_, rfl, _⟩ | ⟨_, _, rfl, _⟩ | ⟨_, _, rfl, _⟩ <;> simp [names, ends]

theorem endsInv {s : St} {h : List (Act × Out)} (r : Run s h) (hb : births h ≤ noId) : Ends s h := by
  induction r with
  | init => exact ⟨fun k hk => absurd hk (Nat.not_lt_zero _), fun k hk => absurd hk (Nat.not_lt_zero _), fun k hk => absurd hk (Nat.not_lt_zero _), fun k e m => (by cases m)⟩
  | @step s s' h a o r hst ih =>
    have hb' := births_le hb
    have i := ih hb'
    have S := seen r hb'
    have T := tabs r hb'
    have F := frame hst
    have hn := frame_n hst
    by_cases hq : aloof a = true
    · obtain ⟨hw, hs⟩ := aloof_same hst hq
      have hend : ∀ k, ends k (a, o) = false := by intro k; cases a <;> first | rfl | (simp [aloof] at hq)
      refine ⟨?_, ?_, ?_, lt_snoc hn (fun k hk => by rw [hend] at hk; cases hk) i.lt⟩
      · intro k hk ha
        have hm := weight_mono k h (a, o)
        by_cases hkn : k < s.n
        · rw [F.app k hkn] at ha
          have := i.wt k hkn ha
          rw [(hs k hkn).2.2]; simp only [St.waitsFor, hw] at *; omega
        · have hne : s'.n ≠ s.n := by omega
          have hke : k = s.n := by
            have := F.n
            have h1 : s'.n ≤ s.n + 1 := by rw [this]; split <;> omega
            omega
          subst hke
          obtain ⟨_, _, _, _, _, b5⟩ := newborn hst hne
          have hz : s'.waitsFor s.n = 0 := by
            simp only [St.waitsFor, hw, List.length_eq_zero_iff, List.filter_eq_nil_iff]
            intro ⟨c, k, via⟩ hm
            have := (T.wait c k via hm).2.1
            simp; omega
          rw [hz]
          cases hd : (s'.thr s.n).detached with
          | false => simp
          | true => have := weight_born h (b5 ha hd); simp; omega
      · intro k hk hf
        have hm := weight_mono k h (a, o)
        by_cases hkn : k < s.n
        · rw [(hs k hkn).2.1] at hf
          obtain ⟨g1, g2⟩ := i.fr k hkn hf
          exact ⟨by rw [(hs k hkn).1]; exact g1, fun ha => by rw [F.app k hkn] at ha; have := g2 ha; omega⟩
        · have hne : s'.n ≠ s.n := by omega
          have hke : k = s.n := by
            have := F.n
            have h1 : s'.n ≤ s.n + 1 := by rw [this]; split <;> omega
            omega
          subst hke
          rw [(newborn hst hne).2.1] at hf; cases hf
      · intro k hk
        rw [ends_snoc (hend k)]
        by_cases hkn : k < s.n
        · rw [(hs k hkn).1]; exact i.done k hkn
        · have hne : s'.n ≠ s.n := by omega
          have hke : k = s.n := by
            have := F.n
            have h1 : s'.n ≤ s.n + 1 := by rw [this]; split <;> omega
            omega
          subst hke
          rw [(newborn hst hne).1]
          constructor
          · intro hh; cases hh
          · intro ⟨x, hx, hk'⟩; exact absurd (i.lt _ x hx hk') (Nat.lt_irrefl _)
    · cases a <;> simp only [aloof, not_true_eq_false] at hq
      case join c j =>
        have hr := actor_runs hst rfl
        have hnn : s'.n = s.n := F.n
        have happ := F.app
        unfold step at hst
        split at hst
        · cases hst
        · simp only [hr, if_true] at hst
          split at hst
          · cases hst
            have hend : ∀ k, ends k (Act.join c j, Out.abort) = false := fun k => rfl
            refine ⟨?_, ?_, ?_, lt_snoc hn (fun k hk => by rw [hend] at hk; cases hk) i.lt⟩
            · intro k hk ha; have := i.wt k hk ha; have := weight_mono k h (Act.join c j, Out.abort); simp only [St.waitsFor] at *; omega
            · intro k hk hf; obtain ⟨g1, g2⟩ := i.fr k hk hf; exact ⟨g1, fun ha => by have := g2 ha; have := weight_mono k h (Act.join c j, Out.abort); omega⟩
            · intro k hk; rw [ends_snoc (hend k)]; exact i.done k hk
          · simp only [Option.some.injEq] at hst
            obtain ⟨⟨g1, g2⟩, _⟩ := join_names hst j
            exact ends_join hst g1 g2 hnn happ i
      case joinStd c k =>
        have hnn : s'.n = s.n := F.n
        have happ := F.app
        unfold step at hst
        split at hst
        · cases hst
        · simp only at hst
          split at hst
          · simp only [Option.some.injEq] at hst
            obtain ⟨_, ⟨g1, g2⟩⟩ := join_names hst k
            exact ends_join hst g1 g2 hnn happ i
          · cases hst
      case detach c j =>
        have hr := actor_runs hst rfl
        have hend : ∀ o k, ends k (Act.detach c j, o) = false := fun o k => rfl
        unfold step at hst
        split at hst
        · cases hst
        · simp only [hr, if_true] at hst
          have hhalt : ∀ o, Ends { s with halted := true } (h ++ [(Act.detach c j, o)]) := by
            intro o
            refine ⟨?_, ?_, ?_, lt_snoc (Nat.le_refl _) (fun k hk => by rw [hend] at hk; cases hk) i.lt⟩
            · intro k hk ha; have := i.wt k hk ha; have := weight_mono k h (Act.detach c j, o); simp only [St.waitsFor] at *; omega
            · intro k hk hf; obtain ⟨g1, g2⟩ := i.fr k hk hf; exact ⟨g1, fun ha => by have := g2 ha; have := weight_mono k h (Act.detach c j, o); omega⟩
            · intro k hk; rw [ends_snoc (hend o k)]; exact i.done k hk
          split at hst
          · cases hst; exact hhalt _
          · next k0 hl =>
            split at hst
            · cases hst; exact hhalt _
            · next hf0 =>
              cases hst
              have hnm : names k0 (Act.detach c j, Out.detached k0) = true := by simp [names]
              refine ⟨?_, ?_, ?_, lt_snoc (Nat.le_refl _) (fun k hk => by rw [hend] at hk; cases hk) i.lt⟩
              · intro k hk ha
                simp only [upd] at ha ⊢
                by_cases e : k = k0
                · subst e
                  simp only [if_true] at ha ⊢
                  have h1 := i.wt k hk ha
                  have h2 := weight_names h hnm
                  simp only [St.waitsFor, Bool.toNat_true] at *; omega
                · simp only [if_neg e] at ha ⊢
                  have h1 := i.wt k hk ha
                  have h2 := weight_mono k h (Act.detach c j, Out.detached k0)
                  simp only [St.waitsFor] at *; omega
              · intro k hk hf
                simp only [upd] at hf ⊢
                by_cases e : k = k0
                · subst e; simp only [if_true] at hf; exact absurd hf hf0
                · simp only [if_neg e] at hf ⊢
                  obtain ⟨g1, g2⟩ := i.fr k hk hf
                  exact ⟨g1, fun ha => by have := g2 ha; have := weight_mono k h (Act.detach c j, Out.detached k0); omega⟩
              · intro k hk
                rw [ends_snoc (hend _ k)]
                simp only [upd]
                by_cases e : k = k0
                · subst e; simp only [if_true]; exact i.done k hk
                · simp only [if_neg e]; exact i.done k hk
      case finish c rv =>
        have hr := actor_runs hst rfl
        have hc := runs_lt hr
        have hnn : s'.n = s.n := F.n
        have happ := F.app
        have hfc : (s.thr c).freed = false := by
          cases hf : (s.thr c).freed with
          | false => rfl
          | true => have := (i.fr c hc hf).1; rw [runs_done hr] at this; cases this
        unfold step at hst
        split at hst
        · cases hst
        · simp only at hst
          split at hst
          · simp only [Option.some.injEq] at hst
            rcases finish_spec hst hfc with ⟨rfl, rfl, _⟩ | ⟨⟨js, rfl⟩, hw, hthr, hd, hfr, _⟩
            · have hend : ∀ k, ends k (Act.finish c rv, Out.ub c) = false := fun k => rfl
              refine ⟨?_, ?_, ?_, lt_snoc hn (fun k hk => by rw [hend] at hk; cases hk) i.lt⟩
              · intro k hk ha; have := i.wt k hk ha; have := weight_mono k h (Act.finish c rv, Out.ub c); simp only [St.waitsFor] at *; omega
              · intro k hk hf; obtain ⟨g1, g2⟩ := i.fr k hk hf; exact ⟨g1, fun ha => by have := g2 ha; have := weight_mono k h (Act.finish c rv, Out.ub c); omega⟩
              · intro k hk; rw [ends_snoc (hend k)]; exact i.done k hk
            · have hendc : ends c (Act.finish c rv, Out.ended js []) = true := by simp [ends]
              have hendo : ∀ k, k ≠ c → ends k (Act.finish c rv, Out.ended js []) = false := by intro k hk; simp [ends, Ne.symm hk]
              have hdet : (s'.thr c).detached = (s.thr c).detached := ((calm_finish hst).thr c).detached
              refine ⟨?_, ?_, ?_, lt_snoc hn ?_ i.lt⟩
              · intro k hk ha
                rw [hnn] at hk
                rw [happ k hk] at ha
                have h1 := i.wt k hk ha
                have h2 := weight_mono k h (Act.finish c rv, Out.ended js [])
                by_cases e : k = c
                · subst e
                  have hz : s'.waitsFor k = 0 := by
                    simp only [St.waitsFor, hw, List.length_eq_zero_iff, List.filter_eq_nil_iff]
                    intro w hm; have := (List.mem_filter.mp hm).2; simpa using this
                  rw [hz, hdet]; omega
                · rw [hthr k e]
                  have hz : s'.waitsFor k = s.waitsFor k := by
                    simp only [St.waitsFor, hw, List.filter_filter]
                    congr 1
                    apply List.filter_congr
                    intro w _
                    by_cases e2 : w.2.1 = k <;> simp [e2, e]
                  rw [hz]; omega
              · intro k hk hf
                rw [hnn] at hk
                have h2 := weight_mono k h (Act.finish c rv, Out.ended js [])
                by_cases e : k = c
                · subst e
                  refine ⟨hd, fun ha => ?_⟩
                  rw [happ k hk] at ha
                  have h1 := i.wt k hk ha
                  rcases hfr hf with g | g | g
                  · omega
                  · rw [g] at h1; simp at h1; omega
                  · exact absurd g ha
                · rw [hthr k e] at hf ⊢
                  obtain ⟨g1, g2⟩ := i.fr k hk hf
                  exact ⟨g1, fun ha => by have := g2 ha; omega⟩
              · intro k hk
                rw [hnn] at hk
                by_cases e : k = c
                · subst e
                  exact ⟨fun _ => ⟨_, List.mem_append_right _ (List.mem_singleton.mpr rfl), hendc⟩, fun _ => hd⟩
                · rw [ends_snoc (hendo k e), hthr k e]; exact i.done k hk
              · intro k hk
                by_cases e : k = c
                · subst e; exact hc
                · rw [hendo k e] at hk; cases hk
          · cases hst

end Verif.Os.Pth
