import Verif.Util.Pool
set_option autoImplicit false
/-
Memory pools: objects never overlap, lie inside memory of the system and are aligned; memory is
reused by the thread that freed it, so that it is bounded for one thread and unbounded for two.
-/
namespace SST.Util.Pool

/-- The pool as a transition system: the system gives new blocks that overlap none it has given
before, and programs destroy only objects that exist. -/
inductive Reach (size : Nat) : List Op → St → Prop where
  | init : Reach size [] .init
  | new {ops s} (t b : Nat) (s' : St) (h : Reach size ops s)
      (hb : ∀ c ∈ s.blocks, b + unitSize size * increment ≤ c ∨ c + unitSize size * increment ≤ b)
      (hs : step size s (.new t b) = some s') : Reach size (ops ++ [.new t b]) s'
  | del {ops s} (t p : Nat) (s' : St) (h : Reach size ops s) (hp : p ∈ s.live)
      (hs : step size s (.del t p) = some s') : Reach size (ops ++ [.del t p]) s'

/-- Such histories are histories of the pool. -/
theorem reach_run {size : Nat} {ops : List Op} {s : St} (h : Reach size ops s) : run size ops = some s := by
  induction h with
  | init => rfl
  | new t b s' h _ hs ih => rw [run, List.foldlM_append]; rw [run] at ih; rw [ih]; simp [hs]
  | del t p s' h _ hs ih => rw [run, List.foldlM_append]; rw [run] at ih; rw [ih]; simp [hs]

/-- All chunks that are free. -/
def idle (s : St) : List Nat := (List.range maxThreads).flatMap s.avail

theorem flatMap_congr' {A B : Type} (f g : A → List B) (l : List A) (h : ∀ a ∈ l, f a = g a) : l.flatMap f = l.flatMap g := by
  induction l with
  | nil => rfl
  | cons a l ih =>
    rw [List.flatMap_cons, List.flatMap_cons, h a List.mem_cons_self, ih fun b hb => h b (List.mem_cons_of_mem _ hb)]

theorem flatMap_put (f : Nat → List Nat) (t : Nat) (xs : List Nat) (l : List Nat) (hn : l.Nodup) (ht : t ∈ l) :
    (l.flatMap (put f t (xs ++ f t))).Perm (xs ++ l.flatMap f) := by
  induction l with
  | nil => simp at ht
  | cons a l ih =>
    rw [List.nodup_cons] at hn
    rw [List.flatMap_cons, List.flatMap_cons]
    by_cases e : a = t
    · subst e
      have : l.flatMap (put f a (xs ++ f a)) = l.flatMap f := by
        apply flatMap_congr'
        intro b hb
        simp only [put]
        rw [if_neg]
        intro e; subst e; exact hn.1 hb
      rw [this]
      have : put f a (xs ++ f a) a = xs ++ f a := by simp [put]
      rw [this, List.append_assoc]
    · have ht' : t ∈ l := by
        rcases List.mem_cons.1 ht with h | h
        · exact absurd h.symm e
        · exact h
      have : put f t (xs ++ f t) a = f a := by simp [put, e]
      rw [this]
      refine (List.Perm.append_left _ (ih hn.2 ht')).trans ?_
      rw [← List.append_assoc, ← List.append_assoc]
      exact .append_right _ List.perm_append_comm

theorem unit_spec (size : Nat) (h : 0 < size) : unitSize size % 64 = 0 ∧ size ≤ unitSize size ∧ 64 ≤ unitSize size ∧
    unitSize size < size + 64 := by
  unfold unitSize alignment
  split <;> omega

/-- Two chunks do not overlap. -/
def Apart (size a b : Nat) : Prop := a + unitSize size ≤ b ∨ b + unitSize size ≤ a

theorem apart_symm (size : Nat) : ∀ {a b : Nat}, Apart size a b → Apart size b a := fun h => h.symm

theorem cut_spec (size base : Nat) (hs : 0 < size) :
    (cut size base).Pairwise (Apart size) ∧
    (∀ p ∈ cut size base, p % 64 = 0 ∧ base ≤ p ∧ p + unitSize size ≤ base + unitSize size * increment) ∧
    511 ≤ (cut size base).length ∧ (cut size base).length ≤ 512 := by
  obtain ⟨h1, h2, h3, _⟩ := unit_spec size hs
  have hpw : ∀ first n, ((List.range n).map fun i => first + i * unitSize size).Pairwise (Apart size) := by
    intro first n
    rw [List.pairwise_map]
    refine List.Pairwise.imp ?_ List.pairwise_lt_range
    intro a b hab
    left
    have : (a + 1) * unitSize size ≤ b * unitSize size := Nat.mul_le_mul_right _ hab
    rw [Nat.add_mul] at this
    omega
  unfold cut
  refine ⟨hpw _ _, ?_, ?_, ?_⟩
  · intro p hp
    obtain ⟨i, hi, rfl⟩ := List.mem_map.1 hp
    rw [List.mem_range] at hi
    have hmod : i * unitSize size % 64 = 0 := by rw [Nat.mul_mod, h1, Nat.mul_zero, Nat.zero_mod]
    unfold increment alignment at *
    have hbound : ∀ k, i < k → i * unitSize size + unitSize size ≤ k * unitSize size := by
      intro k hk
      have : (i + 1) * unitSize size ≤ k * unitSize size := Nat.mul_le_mul_right _ hk
      rw [Nat.add_mul] at this
      omega
    by_cases hb : base % 64 ≠ 0
    · rw [if_pos hb] at hi ⊢
      have := hbound 511 hi
      refine ⟨by omega, by omega, ?_⟩
      have e : unitSize size * 512 = 511 * unitSize size + unitSize size := by omega
      omega
    · rw [if_neg hb] at hi ⊢
      have := hbound 512 hi
      refine ⟨by omega, by omega, ?_⟩
      rw [Nat.mul_comm (unitSize size)]
      omega
  · rw [List.length_map, List.length_range]; unfold increment; split <;> omega
  · rw [List.length_map, List.length_range]; unfold increment; split <;> omega

/-- The invariant of the pool. -/
def Inv (size : Nat) (s : St) : Prop :=
  (s.live ++ idle s).Pairwise (Apart size) ∧
  (∀ p ∈ s.live ++ idle s, p % 64 = 0 ∧ ∃ b ∈ s.blocks, b ≤ p ∧ p + unitSize size ≤ b + unitSize size * increment) ∧
  511 * s.blocks.length ≤ (s.live ++ idle s).length ∧ (s.live ++ idle s).length ≤ 512 * s.blocks.length

theorem inv_perm {size : Nat} {s s' : St} (h : Inv size s) (hb : s'.blocks = s.blocks)
    (hp : (s'.live ++ idle s').Perm (s.live ++ idle s)) : Inv size s' := by
  obtain ⟨h1, h2, h3, h4⟩ := h
  refine ⟨(hp.pairwise_iff (apart_symm size)).2 h1, ?_, ?_, ?_⟩
  · intro p hm
    rw [hb]
    exact h2 p (hp.mem_iff.1 hm)
  · rw [hb, hp.length_eq]; exact h3
  · rw [hb, hp.length_eq]; exact h4

theorem put_put {A : Type} (f : Nat → A) (i : Nat) (a b : A) : put (put f i a) i b = put f i b := by
  funext j; simp only [put]; split <;> rfl

theorem put_self {A : Type} (f : Nat → A) (i : Nat) : put f i (f i) = f := by
  funext j; simp only [put]; split
  · rename_i e; rw [e]
  · rfl

theorem idle_push (s : St) (t : Nat) (ht : t < maxThreads) (xs : List Nat) (b l : List Nat) :
    (idle ⟨put s.avail t (xs ++ s.avail t), b, l⟩).Perm (xs ++ idle s) :=
  flatMap_put s.avail t xs _ List.nodup_range (List.mem_range.2 ht)

theorem idle_pop (s : St) (t : Nat) (ht : t < maxThreads) (p : Nat) (ps : List Nat) (h : s.avail t = p :: ps) (b l : List Nat) :
    (idle s).Perm (p :: idle ⟨put s.avail t ps, b, l⟩) := by
  have := idle_push ⟨put s.avail t ps, b, l⟩ t ht [p] s.blocks s.live
  have e : put (put s.avail t ps) t ([p] ++ put s.avail t ps t) = s.avail := by
    rw [put_put]
    have : put s.avail t ps t = ps := by simp [put]
    rw [this, List.singleton_append, ← h, put_self]
  simp only [e] at this
  exact this

theorem inv_grow (size : Nat) (hs : 0 < size) (s : St) (t b : Nat) (ht : t < maxThreads) (h : Inv size s)
    (hb : ∀ c ∈ s.blocks, b + unitSize size * increment ≤ c ∨ c + unitSize size * increment ≤ b) :
    Inv size (grow size s t b) := by
  obtain ⟨c1, c2, c3, c4⟩ := cut_spec size b hs
  obtain ⟨h1, h2, h3, h4⟩ := h
  have hp : ((grow size s t b).live ++ idle (grow size s t b)).Perm (cut size b ++ (s.live ++ idle s)) := by
    have h1 := idle_push s t ht (cut size b).reverse (b :: s.blocks) s.live
    refine (List.Perm.append_left s.live h1).trans ?_
    rw [← List.append_assoc, ← List.append_assoc]
    refine .append_right _ ?_
    exact List.perm_append_comm.trans (.append_right _ (List.reverse_perm _))
  have hbl : (grow size s t b).blocks = b :: s.blocks := rfl
  refine ⟨(hp.pairwise_iff (apart_symm size)).2 ?_, ?_, ?_, ?_⟩
  · rw [List.pairwise_append]
    refine ⟨c1, h1, ?_⟩
    intro p hp q hq
    obtain ⟨_, p1, p2⟩ := c2 p hp
    obtain ⟨_, c, hc, q1, q2⟩ := h2 q hq
    unfold Apart
    rcases hb c hc with h | h
    · left; omega
    · right; omega
  · intro p hm
    rw [hbl]
    rcases List.mem_append.1 (hp.mem_iff.1 hm) with h | h
    · obtain ⟨m, p1, p2⟩ := c2 p h
      exact ⟨m, b, List.mem_cons_self, p1, p2⟩
    · obtain ⟨m, c, hc, q⟩ := h2 p h
      exact ⟨m, c, List.mem_cons_of_mem _ hc, q⟩
  · rw [hp.length_eq, hbl, List.length_append, List.length_cons]; omega
  · rw [hp.length_eq, hbl, List.length_append, List.length_cons]; omega

theorem grow_avail (size : Nat) (hs : 0 < size) (s : St) (t b : Nat) : (grow size s t b).avail t ≠ [] := by
  intro h
  have h' : (cut size b).reverse ++ s.avail t = [] := by
    rw [← h]; simp [grow, put]
  have h1 := congrArg List.length h'
  rw [List.length_append, List.length_reverse, List.length_nil] at h1
  have h2 := (cut_spec size b hs).2.2.1
  omega

/-- What creating an object does, in one line for each case. -/
theorem alloc_spec (size : Nat) (hs : 0 < size) (s s' : St) (t b : Nat) (h : step size s (.new t b) = some s') :
    t < maxThreads ∧ ∃ s1, (s1 = s ∧ s.avail t ≠ [] ∨ s1 = grow size s t b ∧ s.avail t = []) ∧
      ∃ p ps, s1.avail t = p :: ps ∧ s' = ⟨put s1.avail t ps, s1.blocks, p :: s.live⟩ := by
  simp only [step, alloc] at h
  split at h
  · simp at h
  · rename_i hc
    refine ⟨by omega, ?_⟩
    by_cases he : s.avail t = []
    · rw [if_pos he] at h
      refine ⟨grow size s t b, .inr ⟨rfl, he⟩, ?_⟩
      split at h
      · simp at h
      · rename_i p ps hp
        injection h with h
        exact ⟨p, ps, hp, h.symm⟩
    · rw [if_neg he] at h
      refine ⟨s, .inl ⟨rfl, he⟩, ?_⟩
      split at h
      · simp at h
      · rename_i p ps hp
        injection h with h
        exact ⟨p, ps, hp, h.symm⟩

theorem inv_reach {size : Nat} (hs : 0 < size) {ops : List Op} {s : St} (h : Reach size ops s) : Inv size s := by
  induction h with
  | init =>
    have : idle St.init = [] := by
      simp [idle, St.init]
    have e : St.init.live ++ idle St.init = [] := by rw [this]; rfl
    refine ⟨?_, ?_, ?_, ?_⟩
    · rw [e]; exact .nil
    · rw [e]; intro p hp; simp at hp
    · rw [e]; exact Nat.le_refl _
    · rw [e]; exact Nat.zero_le _
  | @new ops s t b s' h hb hst ih =>
    obtain ⟨ht, s1, h1, p, ps, hp, rfl⟩ := alloc_spec size hs s s' t b hst
    have hi : Inv size s1 := by
      rcases h1 with ⟨rfl, _⟩ | ⟨rfl, _⟩
      · exact ih
      · exact inv_grow size hs s t b ht ih hb
    have hl : s1.live = s.live := by rcases h1 with ⟨rfl, _⟩ | ⟨rfl, _⟩ <;> rfl
    refine inv_perm hi rfl ?_
    have := idle_pop s1 t ht p ps hp s1.blocks (p :: s.live)
    refine List.Perm.symm ((List.Perm.append_left s1.live this).trans ?_)
    rw [hl]
    exact List.perm_middle
  | @del ops s t p s' h hp hst ih =>
    simp only [step, free] at hst
    split at hst
    · simp at hst
    · rename_i ht
      injection hst with hst
      subst hst
      refine inv_perm ih rfl ?_
      have := idle_push s t (by omega) [p] s.blocks (s.live.erase p)
      refine (List.Perm.append_left _ this).trans ?_
      refine List.perm_middle.trans ?_
      exact (List.perm_cons_erase hp).symm.append_right _

/-- Objects that exist at the same time never share a byte, whichever threads create and destroy
them; each is aligned to 64 bytes and lies in a block of memory from the system. -/
theorem C112_disjoint {size : Nat} (hs : 0 < size) {ops : List Op} {s : St} (h : Reach size ops s) :
    s.live.Pairwise (fun p q => ∀ i j, i < size → j < size → p + i ≠ q + j) ∧
    ∀ p ∈ s.live, p % 64 = 0 ∧ ∃ b ∈ s.blocks, b ≤ p ∧ p + size ≤ b + unitSize size * increment := by
  obtain ⟨h1, h2, _⟩ := inv_reach hs h
  obtain ⟨_, u, _⟩ := unit_spec size hs
  refine ⟨?_, ?_⟩
  · refine List.Pairwise.imp ?_ (List.pairwise_append.1 h1).1
    intro p q ha i j hi hj
    rcases ha with ha | ha <;> omega
  · intro p hp
    obtain ⟨m, b, hb, e1, e2⟩ := h2 p (List.mem_append_left _ hp)
    exact ⟨m, b, hb, e1, by omega⟩

/-- In particular no object that exists is handed out again. -/
theorem C112_fresh {size : Nat} (hs : 0 < size) {ops : List Op} {s s' : St} {t b p : Nat} (h : Reach size ops s)
    (hb : ∀ c ∈ s.blocks, b + unitSize size * increment ≤ c ∨ c + unitSize size * increment ≤ b)
    (hst : step size s (.new t b) = some s') (hp : s'.live = p :: s.live) : p ∉ s.live := by
  have := (C112_disjoint hs (.new t b s' h hb hst)).1
  rw [hp, List.pairwise_cons] at this
  intro hm
  exact this.1 p hm 0 0 hs hs rfl

/-- Creating an object never fails for the threads the pool has room for; beyond them it does. -/
theorem C112_threads {size : Nat} (hs : 0 < size) (s : St) (t b : Nat) :
    (step size s (.new t b)).isSome = true ↔ t < 128 := by
  simp only [step, alloc, ne_eq, not_true, false_or]
  by_cases ht : maxThreads ≤ t
  · rw [if_pos ht]
    unfold maxThreads at ht
    simp only [Option.isSome_none, Bool.false_eq_true, false_iff]
    omega
  · rw [if_neg ht]
    unfold maxThreads at ht
    have : ∀ s1 : St, s1.avail t ≠ [] → (match s1.avail t with
        | [] => none
        | p :: ps => some { s1 with avail := put s1.avail t ps, live := p :: s1.live } : Option St).isSome = true := by
      intro s1 h1
      split
      · rename_i e; exact absurd e h1
      · rfl
    refine ⟨fun _ => by omega, fun _ => ?_⟩
    by_cases he : s.avail t = []
    · rw [if_pos he]; exact this _ (grow_avail size hs s t b)
    · rw [if_neg he]; exact this _ he

/-- A thread that destroys an object and creates one gets the same memory back. -/
theorem C112_reuse {size : Nat} (s s1 s2 : St) (t b p : Nat) (h1 : step size s (.del t p) = some s1)
    (h2 : step size s1 (.new t b) = some s2) : s2.live = p :: s1.live ∧ s2.blocks = s1.blocks := by
  simp only [step, free] at h1
  split at h1
  · simp at h1
  · rename_i ht
    injection h1 with h1
    have ha : s1.avail t = p :: s.avail t := by rw [← h1]; simp [put]
    simp only [step, alloc] at h2
    split at h2
    · simp at h2
    · rw [if_neg (by rw [ha]; simp), ha] at h2
      injection h2 with h2
      rw [← h2]
      exact ⟨rfl, rfl⟩

/-- The thread of an operation. -/
def Op.thread : Op → Nat
  | .new t _ => t
  | .del t _ => t

/-- If one thread does everything, memory is taken from the system only as needed: for each block
but the first there was a time when 511 more objects existed. -/
theorem C112_bounded_partial {size : Nat} (hs : 0 < size) (t : Nat) {ops : List Op} {s : St} (h : Reach size ops s)
    (ht : ∀ o ∈ ops, o.thread = t) (hpos : s.blocks ≠ []) :
    ∃ pre s', pre <+: ops ∧ Reach size pre s' ∧ 511 * (s.blocks.length - 1) < s'.live.length := by
  have hempty : ∀ {ops s}, Reach size ops s → (∀ o ∈ ops, o.thread = t) → ∀ t', t' ≠ t → s.avail t' = [] := by
    intro ops s h
    induction h with
    | init => intro _ t' _; rfl
    | @new ops s t1 b s' h hb hst ih =>
      intro ho t' hne
      have e : t1 = t := ho (.new t1 b) (List.mem_append_right _ List.mem_cons_self)
      subst e
      have ih := ih (fun o h => ho o (List.mem_append_left _ h)) t' hne
      obtain ⟨_, s1, h1, p, ps, hp, rfl⟩ := alloc_spec size hs s s' t1 b hst
      rcases h1 with ⟨rfl, _⟩ | ⟨rfl, _⟩
      · simp only [put]; rw [if_neg hne]; exact ih
      · simp only [put, grow]; rw [if_neg hne, if_neg hne]; exact ih
    | @del ops s t1 p s' h hp hst ih =>
      intro ho t' hne
      have e : t1 = t := ho (.del t1 p) (List.mem_append_right _ List.mem_cons_self)
      subst e
      have ih := ih (fun o h => ho o (List.mem_append_left _ h)) t' hne
      simp only [step, free] at hst
      split at hst
      · simp at hst
      · injection hst with hst
        subst hst
        simp only [put]; rw [if_neg hne]; exact ih
  induction h with
  | init => exact absurd rfl hpos
  | @new ops s t1 b s' h hb hst ih =>
    have e : t1 = t := ht (.new t1 b) (List.mem_append_right _ List.mem_cons_self)
    subst e
    have hto : ∀ o ∈ ops, o.thread = t1 := fun o h => ht o (List.mem_append_left _ h)
    obtain ⟨htm, s1, h1, p, ps, hp, hs'⟩ := alloc_spec size hs s s' t1 b hst
    rcases h1 with ⟨rfl, _⟩ | ⟨h1, he⟩
    · have hbl : s'.blocks = s1.blocks := by rw [hs']
      rw [hbl] at hpos ⊢
      obtain ⟨pre, q, hq, hr⟩ := ih hto hpos
      exact ⟨pre, q, hq.trans (List.prefix_append _ _), hr⟩
    · refine ⟨ops ++ [.new t1 b], s', List.prefix_refl _, .new t1 b s' h hb hst, ?_⟩
      have hidle : idle s = [] := by
        unfold idle
        rw [List.flatMap_eq_nil_iff]
        intro t' _
        by_cases e : t' = t1
        · rw [e]; exact he
        · exact hempty h hto t' e
      have hi := (inv_reach hs h).2.2.1
      rw [hidle, List.append_nil] at hi
      have hbl : s'.blocks = b :: s.blocks := by rw [hs', h1]; rfl
      have hll : s'.live = p :: s.live := by rw [hs']
      rw [hbl, hll, List.length_cons, List.length_cons]
      omega
  | @del ops s t1 p s' h hp hst ih =>
    have hbl : s'.blocks = s.blocks := by
      simp only [step, free] at hst
      split at hst
      · simp at hst
      · injection hst with hst
        subst hst
        rfl
    rw [hbl] at hpos ⊢
    obtain ⟨pre, q, hq, hr⟩ := ih (fun o h => ht o (List.mem_append_left _ h)) hpos
    exact ⟨pre, q, hq.trans (List.prefix_append _ _), hr⟩

theorem exists_base (U : Nat) (l : List Nat) : ∃ b, ∀ c ∈ l, c + U ≤ b := by
  induction l with
  | nil => exact ⟨0, fun c h => by simp at h⟩
  | cons a l ih =>
    obtain ⟨b, hb⟩ := ih
    refine ⟨b + a + U, ?_⟩
    intro c hc
    rcases List.mem_cons.1 hc with rfl | h
    · omega
    · have := hb c h; omega

/-- If one thread creates objects and another destroys them, memory grows for ever although never
more than one object exists: after any number of rounds, at most 512 objects have shared a
block. -/
theorem C112_bounded_refuted {size : Nat} (hs : 0 < size) (n : Nat) : ∃ ops s, Reach size ops s ∧
    (∀ pre s', pre <+: ops → run size pre = some s' → s'.live.length ≤ 1) ∧ n ≤ s.blocks.length := by
  have key : ∀ k, ∃ ops s, Reach size ops s ∧ (∀ pre s', pre <+: ops → run size pre = some s' → s'.live.length ≤ 1) ∧
      s.live = [] ∧ (s.avail 1).length = k := by
    intro k
    induction k with
    | zero =>
      refine ⟨[], .init, .init, ?_, rfl, rfl⟩
      intro pre s' hp hr
      have : pre = [] := List.prefix_nil.1 hp
      subst this
      injection hr with hr
      rw [← hr]; simp [St.init]
    | succ k ih =>
      obtain ⟨ops, s, hr, hm, hl, ha⟩ := ih
      obtain ⟨b, hb⟩ := exists_base (unitSize size * increment) s.blocks
      have hsome := (C112_threads hs s 0 b).2 (by decide)
      obtain ⟨s1, h1⟩ := Option.isSome_iff_exists.1 hsome
      have hr1 := Reach.new 0 b s1 hr (fun c hc => .inr (hb c hc)) h1
      obtain ⟨_, s0, h0, p, ps, hp, hs1⟩ := alloc_spec size hs s s1 0 b h1
      have hl1 : s1.live = [p] := by rw [hs1, hl]
      have ha1 : s1.avail 1 = s.avail 1 := by
        rw [hs1]
        rcases h0 with ⟨rfl, _⟩ | ⟨rfl, _⟩ <;> simp [put, grow]
      have h2 : step size s1 (.del 1 p) = some ⟨put s1.avail 1 (p :: s1.avail 1), s1.blocks, s1.live.erase p⟩ := by
        simp [step, free, maxThreads]
      have hr2 := Reach.del 1 p _ hr1 (by rw [hl1]; exact List.mem_cons_self) h2
      refine ⟨_, _, hr2, ?_, ?_, ?_⟩
      · intro pre s' hpre hrun
        rcases List.prefix_concat_iff.1 hpre with e | hpre
        · rw [e, reach_run hr2] at hrun
          injection hrun with hrun
          rw [← hrun, hl1]; simp
        · rcases List.prefix_concat_iff.1 hpre with e | hpre
          · rw [e, reach_run hr1] at hrun
            injection hrun with hrun
            rw [← hrun, hl1]; simp
          · exact hm pre s' hpre hrun
      · rw [hl1]; simp
      · simp [put, ha1, ha]
  obtain ⟨ops, s, hr, hm, hl, ha⟩ := key (512 * n)
  refine ⟨ops, s, hr, hm, ?_⟩
  have hi := (inv_reach hs hr).2.2.2
  rw [hl, List.nil_append] at hi
  have hle : (s.avail 1).length ≤ (idle s).length := by
    have h1 := idle_push ⟨put s.avail 1 [], s.blocks, s.live⟩ 1 (by decide) (s.avail 1) s.blocks s.live
    have e : put (put s.avail 1 []) 1 (s.avail 1 ++ put s.avail 1 [] 1) = s.avail := by
      rw [put_put]
      have : put s.avail 1 ([] : List Nat) 1 = [] := by simp [put]
      rw [this, List.append_nil, put_self]
    simp only [e] at h1
    have := h1.length_eq
    rw [List.length_append] at this
    have e2 : idle ⟨s.avail, s.blocks, s.live⟩ = idle s := rfl
    rw [e2] at this
    omega
  omega

/-- A history in which two threads have an object of 100 bytes each. -/
example : ∃ ops s, Reach 100 ops s ∧ s.live.length = 2 ∧ ∃ o ∈ ops, ∃ o' ∈ ops, o.thread ≠ o'.thread := by
  obtain ⟨s1, h1⟩ := Option.isSome_iff_exists.1 ((C112_threads (size := 100) (by decide) .init 0 1000).2 (by decide))
  have r1 := Reach.new 0 1000 s1 .init (fun c hc => by simp [St.init] at hc) h1
  obtain ⟨b, hb⟩ := exists_base (unitSize 100 * increment) s1.blocks
  obtain ⟨s2, h2⟩ := Option.isSome_iff_exists.1 ((C112_threads (size := 100) (by decide) s1 1 b).2 (by decide))
  have r2 := Reach.new 1 b s2 r1 (fun c hc => .inr (hb c hc)) h2
  refine ⟨_, s2, r2, ?_, .new 0 1000, by simp, .new 1 b, by simp, by simp [Op.thread]⟩
  obtain ⟨_, _, _, _, _, _, e1⟩ := alloc_spec 100 (by decide) .init s1 0 1000 h1
  obtain ⟨_, _, _, _, _, _, e2⟩ := alloc_spec 100 (by decide) s1 s2 1 b h2
  rw [e2, e1]; rfl

end SST.Util.Pool
