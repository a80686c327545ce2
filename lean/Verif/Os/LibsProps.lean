import Verif.Os.Libs
set_option autoImplicit false
/-
Requests for libraries: each is delivered once, to a library of its name; it waits exactly while
there is none.
-/
namespace SST.Os.Libs

/-- Specification: the requests of a history, in order. -/
def arrivals : List Op → List Req
  | [] => []
  | .req r :: ops => r :: arrivals ops
  | _ :: ops => arrivals ops

/-- Specification: how often a library is registered more than unregistered. -/
def bal (l : Nat) (ops : List Op) : Int := (ops.count (.reg l) : Int) - (ops.count (.unreg l) : Int)

theorem run_snoc (nm : Nat → Nat) (ops : List Op) (o : Op) : run nm (ops ++ [o]) = step nm (run nm ops) o := by
  rw [run, List.foldl_append]; rfl

theorem snocInd {A : Type} {P : List A → Prop} (h0 : P []) (h1 : ∀ l a, P l → P (l ++ [a])) (l : List A) : P l := by
  have : ∀ l : List A, P l.reverse := by
    intro l
    induction l with
    | nil => exact h0
    | cons a l ih => rw [List.reverse_cons]; exact h1 _ _ ih
  have := this l.reverse
  rwa [List.reverse_reverse] at this

theorem arrivals_append (a b : List Op) : arrivals (a ++ b) = arrivals a ++ arrivals b := by
  induction a with
  | nil => rfl
  | cons o a ih => cases o <;> simp only [List.cons_append, arrivals, ih]

/-- Every request is, at every moment, in exactly one place: given to a library, about to be given
to one, or waiting; and libraries only get requests of their name. -/
theorem C111_exactly_once (nm : Nat → Nat) (ops : List Op) :
    ((run nm ops).got.map (·.2) ++ (run nm ops).sched.map (·.2) ++ (run nm ops).pending).Perm (arrivals ops) ∧
    ∀ p ∈ (run nm ops).got ++ (run nm ops).sched, nm p.1 = p.2.1 := by
  induction ops using snocInd with
  | h0 => exact ⟨.refl _, by simp [run, St.init]⟩
  | h1 ops o ih =>
    rw [run_snoc, arrivals_append]
    have hlib : ∀ ops, ∀ n l, (run nm ops).libs n = some l → nm l = n := by
      intro ops
      induction ops using snocInd with
      | h0 => intro n l h; simp [run, St.init] at h
      | h1 ops o ih =>
        intro n l h
        rw [run_snoc] at h
        cases o with
        | reg k =>
          simp only [step, register, put] at h
          split at h
          · rename_i e; injection h with h; rw [← h, e]
          · exact ih _ _ h
        | unreg k =>
          simp only [step, unregister] at h
          split at h
          · simp only [put] at h
            split at h
            · simp at h
            · exact ih _ _ h
          · exact ih _ _ h
        | req r =>
          simp only [step, request] at h
          split at h <;> exact ih _ _ h
        | fire =>
          simp only [step, fire] at h
          split at h <;> exact ih _ _ h
    have hl := hlib ops
    revert ih hl
    generalize run nm ops = s
    intro ⟨ih1, ih2⟩ hl
    cases o with
    | reg l =>
      refine ⟨?_, ?_⟩
      · simp only [step, register, arrivals, List.append_nil, List.map_append, List.map_map]
        have e : ((fun x : Nat × Req => x.2) ∘ fun r => (l, r)) = id := rfl
        rw [e, List.map_id]
        refine .trans ?_ ih1
        rw [List.append_assoc, List.append_assoc, List.append_assoc]
        refine .append_left _ (.append_left _ ?_)
        have := List.filter_append_perm (fun r : Req => r.1 == nm l) s.pending
        exact this
      · intro p hp
        simp only [step, register, List.mem_append, List.mem_map, List.mem_filter] at hp
        rcases hp with hp | hp | ⟨r, ⟨_, hr⟩, rfl⟩
        · exact ih2 p (List.mem_append_left _ hp)
        · exact ih2 p (List.mem_append_right _ hp)
        · exact (beq_iff_eq.1 hr).symm
    | unreg l =>
      simp only [step, unregister, arrivals, List.append_nil]
      split <;> exact ⟨ih1, ih2⟩
    | req r =>
      simp only [step, request, arrivals]
      split
      · rename_i l hsome
        refine ⟨?_, ?_⟩
        · simp only [List.map_append, List.map_cons, List.map_nil]
          refine .trans ?_ (.append_right [r] ih1)
          rw [List.append_assoc, List.append_assoc, List.append_assoc, List.append_assoc]
          refine .append_left _ ?_
          rw [← List.append_assoc (s.sched.map (·.2)) s.pending [r]]
          exact List.perm_append_comm
        · intro p hp
          simp only [List.mem_append, List.mem_singleton] at hp
          rcases hp with (hp | rfl) | hp
          · exact ih2 p (List.mem_append_left _ hp)
          · exact hl _ _ hsome
          · exact ih2 p (List.mem_append_right _ hp)
      · refine ⟨?_, ih2⟩
        rw [← List.append_assoc]
        exact .append_right [r] ih1
    | fire =>
      simp only [step, fire, arrivals, List.append_nil]
      split
      · exact ⟨ih1, ih2⟩
      · rename_i p ps hs
        rw [hs] at ih1 ih2
        refine ⟨?_, ?_⟩
        · simp only [List.map_append, List.map_cons, List.map_nil, List.append_assoc, List.cons_append, List.nil_append] at ih1 ⊢
          exact ih1
        · intro q hq
          refine ih2 q ?_
          simpa [List.append_assoc] using hq

/-- A request waits only while no library is registered under its name. -/
theorem C111_waits (nm : Nat → Nat) (ops : List Op) : ∀ r ∈ (run nm ops).pending, (run nm ops).libs r.1 = none := by
  induction ops using snocInd with
  | h0 => intro r h; simp [run, St.init] at h
  | h1 ops o ih =>
    rw [run_snoc]
    revert ih
    generalize run nm ops = s
    intro ih r hr
    cases o with
    | reg l =>
      simp only [step, register, List.mem_filter, bne_iff_ne] at hr
      simp only [step, register, put]
      rw [if_neg hr.2]
      exact ih r hr.1
    | unreg l =>
      simp only [step, unregister] at hr ⊢
      split
      · rename_i h
        rw [if_pos h] at hr
        simp only [put]
        split
        · rfl
        · exact ih r hr
      · rename_i h
        rw [if_neg h] at hr
        exact ih r hr
    | req q =>
      simp only [step, request] at hr ⊢
      cases hq : s.libs q.1 with
      | some l =>
        rw [hq] at hr
        exact ih r hr
      | none =>
        rw [hq] at hr
        rcases List.mem_append.1 hr with h | h
        · exact ih r h
        · rw [List.mem_singleton.1 h]; exact hq
    | fire =>
      simp only [step, fire] at hr ⊢
      cases hq : s.sched with
      | nil => rw [hq] at hr; exact ih r hr
      | cons p ps => rw [hq] at hr; exact ih r hr

/-- Histories in which no library is unregistered more often than registered and no two registered
libraries have the same name. -/
def Orderly (nm : Nat → Nat) (ops : List Op) : Prop :=
  ∀ pre, pre <+: ops → (∀ l, 0 ≤ bal l pre) ∧ ∀ l l', 0 < bal l pre → 0 < bal l' pre → nm l = nm l' → l = l'

theorem bal_snoc (l : Nat) (ops : List Op) (o : Op) : bal l (ops ++ [o]) =
    bal l ops + (if o = .reg l then 1 else 0) - (if o = .unreg l then 1 else 0) := by
  simp only [bal, List.count_append, List.count_singleton, beq_iff_eq]
  have : ∀ (c : Prop) [Decidable c], ((if c then 1 else 0 : Nat) : Int) = if c then 1 else 0 := by
    intro c _; split <;> rfl
  simp only [Int.natCast_add, this]
  omega

theorem orderly_pre {nm : Nat → Nat} {a b : List Op} (h : Orderly nm (a ++ b)) : Orderly nm a :=
  fun pre hp => h pre (hp.trans (List.prefix_append _ _))

theorem refs_inv (nm : Nat → Nat) (ops : List Op) (h : Orderly nm ops) :
    (∀ l, (run nm ops).refs l = bal l ops) ∧ ∀ n l, (run nm ops).libs n = some l ↔ nm l = n ∧ 0 < bal l ops := by
  induction ops using snocInd with
  | h0 => exact ⟨fun l => rfl, fun n l => ⟨fun h => by simp [run, St.init] at h, fun h => absurd h.2 (by simp [bal])⟩⟩
  | h1 ops o ih =>
    obtain ⟨ih1, ih2⟩ := ih (orderly_pre h)
    have hpre := h (ops ++ [o]) (List.prefix_refl _)
    have hold := h ops (List.prefix_append _ _)
    rw [run_snoc]
    generalize run nm ops = s at ih1 ih2
    cases o with
    | reg k =>
      have hb : ∀ l, bal l (ops ++ [.reg k]) = bal l ops + if l = k then 1 else 0 := by
        intro l
        rw [bal_snoc]
        by_cases e : l = k
        · subst e; simp
        · simp [e, Ne.symm e]
      have hk : 0 < bal k (ops ++ [.reg k]) := by
        have := hold.1 k
        rw [hb, if_pos rfl]; omega
      refine ⟨?_, ?_⟩
      · intro l
        simp only [step, register, put, ih1, hb]
        by_cases e : l = k
        · subst e; simp
        · simp [e]
      · intro n l
        simp only [step, register, put]
        constructor
        · intro hh
          split at hh
          · rename_i e
            injection hh with hh
            rw [← hh]; exact ⟨e.symm, hk⟩
          · have := (ih2 n l).1 hh
            refine ⟨this.1, ?_⟩
            rw [hb]; split <;> omega
        · intro ⟨e, hl⟩
          by_cases en : n = nm k
          · rw [if_pos en]
            rw [hpre.2 l k hl hk (by rw [e, en])]
          · rw [if_neg en, ih2]
            refine ⟨e, ?_⟩
            rw [hb] at hl
            have : l ≠ k := fun hlk => en (by rw [← e, hlk])
            rw [if_neg this] at hl
            omega
    | unreg k =>
      have hb : ∀ l, bal l (ops ++ [.unreg k]) = bal l ops - if l = k then 1 else 0 := by
        intro l
        rw [bal_snoc]
        by_cases e : l = k
        · subst e; simp
        · simp [e, Ne.symm e]
      have hk := hpre.1 k
      rw [hb, if_pos rfl] at hk
      have hkpos : 0 < bal k ops := by omega
      refine ⟨?_, ?_⟩
      · intro l
        simp only [step, unregister, ih1]
        split
        · rename_i h1
          simp only [put, hb]
          by_cases e : l = k
          · subst e; simp only [if_true]; omega
          · simp [e, ih1]
        · simp only [put, hb]
          by_cases e : l = k
          · subst e; simp
          · simp [e, ih1]
      · intro n l
        simp only [step, unregister, ih1]
        split
        · rename_i h1
          simp only [put]
          by_cases en : n = nm k
          · rw [if_pos en]
            refine ⟨fun hh => by simp at hh, fun ⟨e, hl⟩ => ?_⟩
            rw [hb] at hl
            by_cases e' : l = k
            · subst e'; rw [if_pos rfl] at hl; omega
            · rw [if_neg e'] at hl
              exact absurd (hold.2 l k (by omega) hkpos (by rw [e, en])) e'
          · rw [if_neg en, ih2]
            constructor
            · intro ⟨e, hl⟩
              refine ⟨e, ?_⟩
              have : l ≠ k := fun hlk => en (by rw [← e, hlk])
              rw [hb, if_neg this]; omega
            · intro ⟨e, hl⟩
              refine ⟨e, ?_⟩
              have : l ≠ k := fun hlk => en (by rw [← e, hlk])
              rw [hb, if_neg this] at hl; omega
        · rename_i h1
          show s.libs n = some l ↔ _
          rw [ih2]
          have : 0 < bal l ops ↔ 0 < bal l (ops ++ [.unreg k]) := by
            rw [hb]
            by_cases e : l = k
            · subst e; rw [if_pos rfl]; omega
            · rw [if_neg e]; omega
          rw [this]
    | req r =>
      have hb : ∀ l, bal l (ops ++ [.req r]) = bal l ops := by intro l; rw [bal_snoc]; simp
      simp only [step, request, hb]
      split <;> exact ⟨ih1, ih2⟩
    | fire =>
      have hb : ∀ l, bal l (ops ++ [.fire]) = bal l ops := by intro l; rw [bal_snoc]; simp
      simp only [step, fire, hb]
      split <;> exact ⟨ih1, ih2⟩

/-- In orderly histories the library found under a name is the one of that name that has been
registered more often than unregistered, if there is one. -/
theorem C111_lookup (nm : Nat → Nat) (ops : List Op) (h : Orderly nm ops) (n l : Nat) :
    (run nm ops).libs n = some l ↔ nm l = n ∧ 0 < bal l ops := (refs_inv nm ops h).2 n l

/-- Histories in which a library is unregistered only when no call of it is scheduled. -/
def Settled (nm : Nat → Nat) (ops : List Op) : Prop :=
  ∀ pre l, pre ++ [.unreg l] <+: ops → ∀ r, (l, r) ∉ (run nm pre).sched

theorem settled_pre {nm : Nat → Nat} {a b : List Op} (h : Settled nm (a ++ b)) : Settled nm a :=
  fun pre l hp => h pre l (hp.trans (List.prefix_append _ _))

theorem sched_live (nm : Nat → Nat) (ops : List Op) (h : Orderly nm ops) (hs : Settled nm ops) :
    ∀ p ∈ (run nm ops).sched, 0 < bal p.1 ops := by
  induction ops using snocInd with
  | h0 => intro p hp; simp [run, St.init] at hp
  | h1 ops o ih =>
    have ih := ih (orderly_pre h) (settled_pre hs)
    have hold := h ops (List.prefix_append _ _)
    intro p hp
    rw [run_snoc] at hp
    rw [bal_snoc]
    cases o with
    | reg k =>
      simp only [step, register, List.mem_append, List.mem_map] at hp
      rcases hp with hp | ⟨r, _, rfl⟩
      · have := ih p hp
        simp only [reduceCtorEq, if_false]
        split <;> omega
      · have := hold.1 k
        simp only [reduceCtorEq, if_false, if_true]
        omega
    | unreg k =>
      have hn := hs ops k (List.prefix_refl _)
      have hp' : p ∈ (run nm ops).sched := by
        simp only [step, unregister] at hp
        split at hp <;> exact hp
      have hne : k ≠ p.1 := fun e => hn p.2 (by rw [e]; exact hp')
      have := ih p hp'
      simp only [reduceCtorEq, if_false, Op.unreg.injEq, if_neg hne]
      omega
    | req r =>
      have hp' : p ∈ (run nm ops).sched := by
        simp only [step, request] at hp
        split at hp <;> exact hp
      have := ih p hp'
      simp only [reduceCtorEq, if_false]; omega
    | fire =>
      have hp' : p ∈ (run nm ops).sched := by
        simp only [step, fire] at hp
        split at hp
        · exact hp
        · rename_i q qs hq
          rw [hq]; exact List.mem_cons_of_mem _ hp
      have := ih p hp'
      simp only [reduceCtorEq, if_false]; omega

/-- In orderly histories that let scheduled calls happen before a library goes, every request is
given to a library that is registered at that moment.  Full property: in every history. -/
theorem C111_registered_partial (nm : Nat → Nat) (ops : List Op) (o : Op) (h : Orderly nm ops) (hs : Settled nm ops)
    (p : Nat × Req) (hp : (run nm (ops ++ [o])).got = (run nm ops).got ++ [p]) : 0 < bal p.1 ops := by
  rw [run_snoc] at hp
  have hl := C111_lookup nm ops h
  have hsl := sched_live nm ops h hs
  revert hp hl hsl
  generalize run nm ops = s
  intro hp hl hsl
  have hno : s.got ≠ s.got ++ [p] := fun he => by
    have := congrArg List.length he
    simp at this
  have hin : ∀ q, s.got ++ [q] = s.got ++ [p] → q = p := fun q he => by
    have := List.append_cancel_left he
    injection this
  cases o with
  | reg l => exact absurd hp hno
  | unreg l =>
    simp only [step, unregister] at hp
    split at hp <;> exact absurd hp hno
  | req r =>
    simp only [step, request] at hp
    split at hp
    · rename_i l hsome
      have := hin _ hp
      rw [← this]
      exact ((hl _ _).1 hsome).2
    · exact absurd hp hno
  | fire =>
    simp only [step, fire] at hp
    split at hp
    · exact absurd hp hno
    · rename_i q qs hq
      have := hin _ hp
      rw [← this]
      exact hsl q (by rw [hq]; exact List.mem_cons_self)

theorem pre_cases {A : Type} {pre : List A} {a b c : A} (hp : pre <+: [a, b, c]) :
    pre = [] ∨ pre = [a] ∨ pre = [a, b] ∨ pre = [a, b, c] := by
  have h := List.prefix_iff_eq_take.1 hp
  have hl := hp.length_le
  revert h hl
  generalize pre.length = k
  intro h hl
  match k, hl, h with
  | 0, _, h => exact .inl h
  | 1, _, h => exact .inr (.inl h)
  | 2, _, h => exact .inr (.inr (.inl h))
  | 3, _, h => exact .inr (.inr (.inr h))

/-- A library that is destroyed right after it was created is still called for the requests that
had waited for it. -/
theorem C111_registered_refuted : ∃ ops, Orderly id ops ∧
    (run id (ops ++ [.fire])).got = (run id ops).got ++ [(7, (7, 1))] ∧ bal 7 ops = 0 := by
  refine ⟨[.req (7, 1), .reg 7, .unreg 7], ?_, by decide, by decide⟩
  intro pre hp
  refine ⟨?_, fun l l' _ _ e => e⟩
  intro l
  rcases pre_cases hp with rfl | rfl | rfl | rfl
  · simp [bal]
  · simp [bal]
  · by_cases e : l = 7
    · subst e; decide
    · simp [bal, List.count_cons, Ne.symm e]
  · by_cases e : l = 7
    · subst e; decide
    · simp [bal, List.count_cons, Ne.symm e]

/-- With two libraries of one name, destroying the one that was created first makes the other one
unreachable: requests for it wait although it is registered. -/
theorem C111_same_name_refuted : ∃ (nm : Nat → Nat) (ops : List Op), nm 2 = 0 ∧ 0 < bal 2 ops ∧
    (run nm ops).libs 0 = none ∧ (run nm ops).pending = [(0, 5)] :=
  ⟨fun _ => 0, [.reg 1, .reg 2, .unreg 1, .req (0, 5)], rfl, by decide, by decide, by decide⟩

/-- Histories in which requests of a name arrive only when no call for that name is scheduled. -/
def Drained (nm : Nat → Nat) (ops : List Op) : Prop :=
  ∀ pre r, pre ++ [.req r] <+: ops → ∀ p ∈ (run nm pre).sched, p.2.1 ≠ r.1

theorem drained_pre {nm : Nat → Nat} {a b : List Op} (h : Drained nm (a ++ b)) : Drained nm a :=
  fun pre r hp => h pre r (hp.trans (List.prefix_append _ _))

/-- Requests of one name are given to libraries in the order of their arrival if none arrives while
calls for that name are scheduled.  Full property: always. -/
theorem C111_order_partial (nm : Nat → Nat) (ops : List Op) (hd : Drained nm ops) (n : Nat) :
    ((run nm ops).got.map (·.2) ++ (run nm ops).sched.map (·.2) ++ (run nm ops).pending).filter (·.1 == n) =
      (arrivals ops).filter (·.1 == n) := by
  induction ops using snocInd with
  | h0 => rfl
  | h1 ops o ih =>
    have ih := ih (drained_pre hd)
    have hx := C111_exactly_once nm ops
    have hw := C111_waits nm ops
    have hdo : ∀ r, o = .req r → ∀ p ∈ (run nm ops).sched, p.2.1 ≠ r.1 := fun r e => hd ops r (by rw [e]; exact List.prefix_refl _)
    rw [run_snoc, arrivals_append]
    revert ih hx hw hdo
    generalize run nm ops = s
    intro ih hx hw hdo
    cases o with
    | reg l =>
      simp only [step, register, arrivals, List.append_nil, List.map_append, List.map_map]
      have e : ((fun x : Nat × Req => x.2) ∘ fun r => (l, r)) = id := rfl
      rw [e, List.map_id, ← ih]
      simp only [List.filter_append, List.append_assoc, List.filter_filter]
      congr 2
      by_cases hn : n = nm l
      · subst hn
        have h1 : s.pending.filter (fun a => a.1 == nm l && a.1 == nm l) = s.pending.filter fun a => a.1 == nm l := by
          congr 1; funext a; rw [Bool.and_self]
        have h2 : s.pending.filter (fun a => a.1 == nm l && a.1 != nm l) = [] := by
          rw [List.filter_eq_nil_iff]
          intro a _ ha
          simp at ha
        rw [h1, h2, List.append_nil]
      · have h1 : s.pending.filter (fun a => a.1 == n && a.1 == nm l) = [] := by
          rw [List.filter_eq_nil_iff]
          intro a _ ha
          simp only [Bool.and_eq_true, beq_iff_eq] at ha
          exact hn (ha.1.symm.trans ha.2)
        have h2 : s.pending.filter (fun a => a.1 == n && a.1 != nm l) = s.pending.filter fun a => a.1 == n := by
          apply List.filter_congr
          intro a _
          by_cases ea : a.1 = n
          · simp [ea, hn]
          · simp [ea]
        rw [h1, h2, List.nil_append]
    | unreg l =>
      simp only [step, unregister, arrivals, List.append_nil]
      split <;> exact ih
    | req r =>
      simp only [step, request, arrivals]
      rw [List.filter_append (l₁ := arrivals ops), ← ih]
      have hdr := hdo r rfl
      by_cases hn : r.1 = n
      · have hf : [r].filter (fun x => x.1 == n) = [r] := by simp [hn]
        have hsch : (s.sched.map (·.2)).filter (fun x => x.1 == n) = [] := by
          rw [List.filter_eq_nil_iff]
          intro a ha hc
          obtain ⟨p, hp, rfl⟩ := List.mem_map.1 ha
          exact hdr p hp (by rw [hn]; exact beq_iff_eq.1 hc)
        cases hl : s.libs r.1 with
        | some l =>
          have hpend : s.pending.filter (fun x => x.1 == n) = [] := by
            rw [List.filter_eq_nil_iff]
            intro a ha hc
            have := hw a ha
            rw [beq_iff_eq.1 hc, ← hn, hl] at this
            exact absurd this (by simp)
          simp only [List.map_append, List.map_cons, List.map_nil, List.filter_append, hf, hsch, hpend, List.append_nil]
        | none =>
          simp only [List.filter_append, hf, hsch, List.append_nil, List.append_assoc]
      · have hf : [r].filter (fun x => x.1 == n) = [] := by simp [hn]
        cases hl : s.libs r.1 with
        | some l => simp only [List.map_append, List.map_cons, List.map_nil, List.filter_append, hf, List.append_nil]
        | none => simp only [List.filter_append, hf, List.append_nil]
    | fire =>
      simp only [step, fire, arrivals, List.append_nil]
      split
      · exact ih
      · rename_i p ps hs
        rw [hs] at ih
        rw [← ih]
        simp only [List.map_append, List.map_cons, List.map_nil, List.append_assoc, List.cons_append, List.nil_append]

/-- A request that arrives between the creation of its library and the delivery of those that had
waited overtakes them. -/
theorem C111_order_refuted : ∃ ops, (arrivals ops) = [(7, 1), (7, 2)] ∧
    (run id ops).got = [(7, (7, 2)), (7, (7, 1))] :=
  ⟨[.req (7, 1), .reg 7, .req (7, 2), .fire], by decide, by decide⟩

/-- A run in which requests wait, are delivered, and are found registered. -/
example : Drained id [.req (7, 1), .reg 7, .fire, .req (7, 2)] ∧
    (run id [.req (7, 1), .reg 7, .fire, .req (7, 2)]).got = [(7, (7, 1)), (7, (7, 2))] := by
  refine ⟨?_, by decide⟩
  intro pre r hp
  have h := List.prefix_iff_eq_take.1 hp
  have hl := hp.length_le
  rw [List.length_append] at h hl
  simp only [List.length_cons, List.length_nil] at h hl
  match pre, hl, h with
  | [], _, _ => simp [run, St.init]
  | [a], _, h => simp at h
  | [a, b], _, h => simp at h
  | [a, b, c], _, h =>
    simp at h
    obtain ⟨rfl, rfl, rfl, rfl⟩ := h
    decide

end SST.Os.Libs
