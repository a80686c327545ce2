import Verif.Mpi.Request

/-!
Specification of the life of requests (in terms of the history of calls only) and the
invariant behind the theorems of `RequestProps`.
-/
set_option autoImplicit false
namespace SST.Mpi.Req

/-! ### Specification -/

/-- The requests given to the program, in order. -/
def handlesOf (tr : Trace) : List Handle :=
  tr.filterMap (fun e => match e.2.out with | .handle h => some h | _ => none)

/-- The completions taken by the calls. -/
def doneIn (tr : Trace) : List Comp := tr.flatMap (fun e => e.2.took)

/-- The operations handed to the network by the calls. -/
def postedIn (tr : Trace) : List Nat := tr.flatMap (fun e => e.2.posts)

/-- The call creates the request `h` for an operation with the arguments `a`; `p`: persistent. -/
def Creates (e : Op × Res) (h : Handle) (k : Kind) (a : Args) (p : Bool) : Prop :=
  e.2.out = .handle h ∧
    ((∃ ms, e.1 = .isend a ms ∧ k = .send ∧ p = false) ∨ (∃ ms, e.1 = .irecv a ms ∧ k = .recv ∧ p = false) ∨
     (e.1 = .sendInit a ∧ k = .send ∧ p = true) ∨ (e.1 = .recvInit a ∧ k = .recv ∧ p = true))

/-- The call gives the request `h` back: the caller's variable becomes `MPI_REQUEST_NULL`. -/
def Releases (e : Op × Res) (h : Handle) : Prop :=
  (∃ x, e.2.out = .ended nullHandle x) ∧
    (e.1 = .free h ∨ (∃ i ms, e.1 = .wait h i ms) ∨ (∃ i ms, e.1 = .test h i ms))

/-- The program holds the request `h`, created for `a` and not given back. -/
def Held (tr : Trace) (h : Handle) (k : Kind) (a : Args) (p : Bool) : Prop :=
  ∃ t1 e t2, tr = t1 ++ e :: t2 ∧ Creates e h k a p ∧ ∀ e' ∈ t2, ¬ Releases e' h

/-- The call starts the operation of `h`; the inner option is the number of the operation
handed to the network, if there is one. -/
def activates (h : Handle) (e : Op × Res) : Option (Option Nat) :=
  match e.1 with
  | .isend _ _ => if e.2.out = .handle h then some e.2.posts.head? else none
  | .irecv _ _ => if e.2.out = .handle h then some e.2.posts.head? else none
  | .start h' _ => if h' = h then some e.2.posts.head? else none
  | _ => none

/-- The last start of the operation of `h`. -/
def lastAct (tr : Trace) (h : Handle) : Option (Option Nat) := (tr.filterMap (activates h)).getLast?

/-- The network completes an operation at most once, and only after it was handed over. -/
def Exact (tr : Trace) : Prop :=
  ((doneIn tr).map (·.1)).Nodup ∧
    ∀ t1 e t2, tr = t1 ++ e :: t2 → ∀ c ∈ e.2.took, c.1 ∈ postedIn (t1 ++ [e])

/-- The program starts a persistent request only when its previous operation has ended. -/
def Proper (tr : Trace) : Prop :=
  ∀ t1 h ms r t2, tr = t1 ++ (.start h ms, r) :: t2 → ∀ i, lastAct t1 h = some (some i) → i ∈ (doneIn t1).map (·.1)

/-- The program has asked for fewer than 0x2c000001 requests. -/
def Few (tr : Trace) : Prop := (handlesOf tr).length ≤ 0x2c000000

/-- All three. -/
def Good (tr : Trace) : Prop := Few tr ∧ Exact tr ∧ Proper tr

/-! ### Histories -/

/-- Splits of a list with one more element at the end. -/
theorem snoc_split {α : Type} {tr t1 t2 : List α} {e x : α} (h : tr ++ [e] = t1 ++ x :: t2) :
    (t2 = [] ∧ t1 = tr ∧ x = e) ∨ ∃ t2', t2 = t2' ++ [e] ∧ tr = t1 ++ x :: t2' := by
  rcases List.eq_nil_or_concat t2 with h0 | ⟨t2', y, h0⟩
  · subst h0
    have := List.append_inj' h rfl
    simp only [List.cons.injEq, and_true] at this
    exact Or.inl ⟨rfl, this.1.symm, this.2.symm⟩
  · subst h0
    have h1 : tr ++ [e] = (t1 ++ x :: t2') ++ [y] := by rw [h]; simp
    have := List.append_inj' h1 rfl
    simp only [List.cons.injEq, and_true] at this
    exact Or.inr ⟨t2', by rw [this.2]; simp, this.1⟩

theorem held_snoc {tr : Trace} {e : Op × Res} {h : Handle} {k : Kind} {a : Args} {p : Bool} :
    Held (tr ++ [e]) h k a p ↔ Creates e h k a p ∨ (Held tr h k a p ∧ ¬ Releases e h) := by
  constructor
  · rintro ⟨t1, x, t2, h1, h2, h3⟩
    rcases snoc_split h1 with ⟨h4, h5, h6⟩ | ⟨t2', h4, h5⟩
    · subst h6; exact Or.inl h2
    · refine Or.inr ⟨⟨t1, x, t2', h5, h2, fun e' he => h3 e' (by rw [h4]; simp [he])⟩, h3 e (by rw [h4]; simp)⟩
  · rintro (h1 | ⟨⟨t1, x, t2, h1, h2, h3⟩, h4⟩)
    · exact ⟨tr, e, [], rfl, h1, by simp⟩
    · refine ⟨t1, x, t2 ++ [e], by rw [h1]; simp, h2, ?_⟩
      intro e' he
      rcases List.mem_append.1 he with he | he
      · exact h3 e' he
      · rw [List.mem_singleton.1 he]; exact h4

theorem held_nil {h : Handle} {k : Kind} {a : Args} {p : Bool} : ¬ Held [] h k a p := by
  rintro ⟨t1, x, t2, h1, -, -⟩
  simp at h1

theorem done_snoc {tr : Trace} {e : Op × Res} : doneIn (tr ++ [e]) = doneIn tr ++ e.2.took := by
  simp [doneIn]

theorem posted_snoc {tr : Trace} {e : Op × Res} : postedIn (tr ++ [e]) = postedIn tr ++ e.2.posts := by
  simp [postedIn]

theorem last_snoc {tr : Trace} {e : Op × Res} {h : Handle} :
    lastAct (tr ++ [e]) h = match activates h e with | some x => some x | none => lastAct tr h := by
  unfold lastAct
  cases hx : activates h e with
  | none => simp [hx]
  | some x => simp [hx]

theorem Good.prefix {tr : Trace} {e : Op × Res} (h : Good (tr ++ [e])) : Good tr := by
  obtain ⟨h1, ⟨h2, h3⟩, h4⟩ := h
  refine ⟨?_, ⟨?_, ?_⟩, ?_⟩
  · unfold Few handlesOf at *
    rw [List.filterMap_append, List.length_append] at h1
    omega
  · rw [done_snoc, List.map_append] at h2
    exact (List.nodup_append.1 h2).1
  · intro t1 x t2 hx
    exact h3 t1 x (t2 ++ [e]) (by rw [hx]; simp)
  · intro t1 hh ms r t2 hx
    exact h4 t1 hh ms r (t2 ++ [e]) (by rw [hx]; simp)

/-! ### The invariant -/

/-- What the last start of a request means for its object. -/
def ActOk (k : Kind) (a : Args) (p : Bool) (o : Nat) (ob : Obj) (last : Option (Option Nat)) (done : List Comp)
    (posts : List (Nat × Kind × Args)) : Prop :=
  match last with
  | none => p = true ∧ ob.complete = false ∧ ∀ (i : Nat) (e : Nat × Kind × Args), posts[i]? = some e → e.1 ≠ o
  | some none => a.peer = procNull ∧ ob.complete = true ∧
      (∀ (i : Nat) (e : Nat × Kind × Args), posts[i]? = some e → e.1 ≠ o) ∧
      (p = false → k = .recv → ob.stat = some procNullStatus)
  | some (some i) => a.peer ≠ procNull ∧ posts[i]? = some (o, k, a) ∧
      (∀ (j : Nat) (e : Nat × Kind × Args), posts[j]? = some e → e.1 = o → j ≠ i → j ∈ done.map (·.1)) ∧
      (ob.complete = true ↔ i ∈ done.map (·.1)) ∧ ∀ st, (i, some st) ∈ done → ob.stat = some st

/-- Objects, table and history agree. -/
structure Inv (n : Nat) (held : Handle → Kind → Args → Bool → Prop) (last : Handle → Option (Option Nat))
    (done : List Comp) (s : St) : Prop where
  cnt : s.counter = n
  small : n ≤ 0x2c000000
  heldH : ∀ h k a p, held h k a p → ∃ m, m < n ∧ h = BitVec.ofNat 32 m
  mapH : ∀ h o, s.map h = some o → ∃ m, m < n ∧ h = BitVec.ofNat 32 m
  inj : ∀ h h' o, s.map h = some o → s.map h' = some o → h = h'
  dom : ∀ h o, s.map h = some o → o < s.objs.length
  postDom : ∀ (i : Nat) (e : Nat × Kind × Args), s.posts[i]? = some e → e.1 < s.objs.length
  obj : ∀ h k a p, held h k a p → ∃ o ob, s.map h = some o ∧ s.objs[o]? = some ob ∧ ob.kind = k ∧
    ob.pers = (if p then some a else none) ∧ ActOk k a p o ob (last h) done s.posts

theorem ofNat_inj {m n : Nat} (hm : m ≤ 0x2c000000) (hn : n ≤ 0x2c000000) (h : BitVec.ofNat 32 m = BitVec.ofNat 32 n) : m = n := by
  have := congrArg BitVec.toNat h
  simp only [BitVec.toNat_ofNat] at this
  rw [Nat.mod_eq_of_lt (by omega), Nat.mod_eq_of_lt (by omega)] at this
  exact this

theorem ofNat_ne_null {m : Nat} (hm : m < 0x2c000000) : BitVec.ofNat 32 m ≠ nullHandle := by
  intro h
  have : m = 0x2c000000 := ofNat_inj (n := 0x2c000000) (by omega) (by omega) h
  omega

/-- A weaker view of the history. -/
theorem Inv.mono {n : Nat} {held held' : Handle → Kind → Args → Bool → Prop} {last last' : Handle → Option (Option Nat)}
    {done : List Comp} {s : St} (hi : Inv n held last done s) (h1 : ∀ h k a p, held' h k a p → held h k a p)
    (h2 : ∀ h k a p, held' h k a p → last' h = last h) : Inv n held' last' done s where
  cnt := hi.cnt
  small := hi.small
  heldH h k a p hh := hi.heldH h k a p (h1 h k a p hh)
  mapH := hi.mapH
  inj := hi.inj
  dom := hi.dom
  postDom := hi.postDom
  obj h k a p hh := by rw [h2 h k a p hh]; exact hi.obj h k a p (h1 h k a p hh)

theorem comp_posts (s : St) (c : Comp) : (s.comp c).posts = s.posts ∧ (s.comp c).map = s.map ∧
    (s.comp c).counter = s.counter ∧ (s.comp c).objs.length = s.objs.length := by
  unfold St.comp
  cases s.posts[c.1]? with
  | none => exact ⟨rfl, rfl, rfl, rfl⟩
  | some p => exact ⟨rfl, rfl, rfl, by simp [St.upd]⟩

theorem comps_posts (l : List Comp) (s : St) : (s.comps l).posts = s.posts ∧ (s.comps l).map = s.map ∧
    (s.comps l).counter = s.counter ∧ (s.comps l).objs.length = s.objs.length := by
  induction l generalizing s with
  | nil => exact ⟨rfl, rfl, rfl, rfl⟩
  | cons c l ih =>
    obtain ⟨h1, h2, h3, h4⟩ := ih (s.comp c)
    obtain ⟨g1, g2, g3, g4⟩ := comp_posts s c
    exact ⟨h1.trans g1, h2.trans g2, h3.trans g3, h4.trans g4⟩

/-- One completion, seen from one object. -/
theorem act_comp {k : Kind} {a : Args} {p : Bool} {o : Nat} {ob : Obj} {last : Option (Option Nat)} {done : List Comp}
    {s : St} {c : Comp} (hob : s.objs[o]? = some ob) (ha : ActOk k a p o ob last done s.posts)
    (hc : c.1 < s.posts.length) (hnew : c.1 ∉ done.map (·.1)) :
    ∃ ob', (s.comp c).objs[o]? = some ob' ∧ ob'.kind = ob.kind ∧ ob'.pers = ob.pers ∧
      ActOk k a p o ob' last (done ++ [c]) (s.comp c).posts := by
  rw [(comp_posts s c).1]
  have hpc : s.posts[c.1]? = some s.posts[c.1] := List.getElem?_eq_getElem hc
  unfold St.comp
  rw [hpc]
  simp only [St.upd]
  by_cases he : s.posts[c.1].1 = o
  · refine ⟨{ ob with complete := true, stat := c.2.orElse (fun _ => ob.stat) }, ?_, rfl, rfl, ?_⟩
    · rw [he, List.getElem?_modify_eq, hob]; rfl
    · cases last with
      | none => exact absurd he (ha.2.2 _ _ hpc)
      | some x =>
        cases x with
        | none => exact absurd he (ha.2.2.1 _ _ hpc)
        | some i =>
          obtain ⟨h1, h2, h3, h4, h5⟩ := ha
          have hci : c.1 = i := by
            apply Decidable.byContradiction
            intro hn
            exact hnew (h3 _ _ hpc he hn)
          refine ⟨h1, h2, ?_, ?_, ?_⟩
          · intro j e hj hej hji
            rw [List.map_append]
            exact List.mem_append_left _ (h3 j e hj hej hji)
          · simp [← hci]
          · intro st hst
            rcases List.mem_append.1 hst with hst | hst
            · exact absurd (List.mem_map_of_mem (f := (·.1)) hst) (by rw [← hci] at *; exact hnew)
            · rw [← List.mem_singleton.1 hst]; rfl
  · refine ⟨ob, ?_, rfl, rfl, ?_⟩
    · rw [List.getElem?_modify_ne _ _ (by exact he)]; exact hob
    · cases last with
      | none => exact ha
      | some x =>
        cases x with
        | none => exact ha
        | some i =>
          obtain ⟨h1, h2, h3, h4, h5⟩ := ha
          have hci : c.1 ≠ i := by
            intro hn
            apply he
            have : s.posts[c.1]? = some (o, k, a) := by rw [hn]; exact h2
            rw [hpc] at this
            rw [Option.some.inj this]
          refine ⟨h1, h2, ?_, ?_, ?_⟩
          · intro j e hj hej hji
            rw [List.map_append]
            exact List.mem_append_left _ (h3 j e hj hej hji)
          · rw [List.map_append, List.mem_append, h4]
            constructor
            · exact Or.inl
            · rintro (h | h)
              · exact h
              · rw [List.map_singleton, List.mem_singleton] at h
                exact absurd h.symm hci
          · intro st hst
            rcases List.mem_append.1 hst with hst | hst
            · exact h5 st hst
            · rw [← List.mem_singleton.1 hst] at hci
              exact absurd rfl hci

/-- A list of completions, seen from one object. -/
theorem act_comps {k : Kind} {a : Args} {p : Bool} {o : Nat} {last : Option (Option Nat)} (l : List Comp)
    {ob : Obj} {done : List Comp} {s : St} (hob : s.objs[o]? = some ob) (ha : ActOk k a p o ob last done s.posts)
    (hc : ∀ c ∈ l, c.1 < s.posts.length) (hn : ((done ++ l).map (·.1)).Nodup) :
    ∃ ob', (s.comps l).objs[o]? = some ob' ∧ ob'.kind = ob.kind ∧ ob'.pers = ob.pers ∧
      ActOk k a p o ob' last (done ++ l) (s.comps l).posts := by
  induction l generalizing ob done s with
  | nil => exact ⟨ob, hob, rfl, rfl, by rw [List.append_nil]; exact ha⟩
  | cons c l ih =>
    have hnew : c.1 ∉ done.map (·.1) := by
      intro hm
      rw [List.map_append, List.nodup_append] at hn
      exact hn.2.2 c.1 hm c.1 (by simp) rfl
    obtain ⟨ob1, g1, g2, g3, g4⟩ := act_comp hob ha (hc c (by simp)) hnew
    have hn' : (((done ++ [c]) ++ l).map (·.1)).Nodup := by
      rw [List.append_assoc]; exact hn
    have hc' : ∀ c' ∈ l, c'.1 < (s.comp c).posts.length := by
      intro c' hc''
      rw [(comp_posts s c).1]
      exact hc c' (List.mem_cons_of_mem _ hc'')
    obtain ⟨ob2, f1, f2, f3, f4⟩ := ih g1 g4 hc' hn'
    rw [List.append_assoc] at f4
    exact ⟨ob2, f1, f2.trans g2, f3.trans g3, f4⟩

theorem Inv.comps {n : Nat} {held : Handle → Kind → Args → Bool → Prop} {last : Handle → Option (Option Nat)}
    {done : List Comp} {s : St} (hi : Inv n held last done s) (l : List Comp)
    (hc : ∀ c ∈ l, c.1 < s.posts.length) (hn : ((done ++ l).map (·.1)).Nodup) :
    Inv n held last (done ++ l) (s.comps l) := by
  obtain ⟨h1, h2, h3, h4⟩ := comps_posts l s
  refine ⟨by rw [h3]; exact hi.cnt, hi.small, hi.heldH, by rw [h2]; exact hi.mapH, by rw [h2]; exact hi.inj, ?_, ?_, ?_⟩
  · rw [h2, h4]; exact hi.dom
  · rw [h1, h4]; exact hi.postDom
  · intro h k a p hh
    obtain ⟨o, ob, g1, g2, g3, g4, g5⟩ := hi.obj h k a p hh
    obtain ⟨ob', f1, f2, f3, f4⟩ := act_comps l g2 g5 hc hn
    exact ⟨o, ob', by rw [h2]; exact g1, f1, f2.trans g3, f3.trans g4, f4⟩

/-- A new object that no request names. -/
theorem Inv.construct {n : Nat} {held : Handle → Kind → Args → Bool → Prop} {last : Handle → Option (Option Nat)}
    {done : List Comp} {s : St} (hi : Inv n held last done s) (k : Kind) : Inv n held last done (s.construct k) := by
  refine ⟨hi.cnt, hi.small, hi.heldH, hi.mapH, hi.inj, ?_, ?_, ?_⟩
  · intro h o ho
    have := hi.dom h o ho
    simp only [St.construct, List.length_append, List.length_singleton]; omega
  · intro i e he
    have := hi.postDom i e he
    simp only [St.construct, List.length_append, List.length_singleton]; omega
  · intro h k' a p hh
    obtain ⟨o, ob, g1, g2, g3⟩ := hi.obj h k' a p hh
    refine ⟨o, ob, g1, ?_, g3⟩
    simp only [St.construct]
    rw [List.getElem?_append_left (hi.dom h o g1)]
    exact g2

/-- The last object is named by no request. -/
theorem Inv.fresh {n : Nat} {held : Handle → Kind → Args → Bool → Prop} {last : Handle → Option (Option Nat)}
    {done : List Comp} {s : St} (hi : Inv n held last done s) (h : Handle) : s.map h ≠ some s.objs.length := by
  intro hh
  exact Nat.lt_irrefl _ (hi.dom h _ hh)

/-- Posts for an object that no request names do not matter to the requests. -/
theorem act_post {k : Kind} {a : Args} {p : Bool} {o : Nat} {ob : Obj} {last : Option (Option Nat)} {done : List Comp}
    {posts : List (Nat × Kind × Args)} (x : Nat × Kind × Args) (hx : x.1 ≠ o) (ha : ActOk k a p o ob last done posts) :
    ActOk k a p o ob last done (posts ++ [x]) := by
  have key : ∀ (i : Nat) (e : Nat × Kind × Args), (posts ++ [x])[i]? = some e → e.1 = o → posts[i]? = some e := by
    intro i e he ho
    by_cases hi : i < posts.length
    · rw [List.getElem?_append_left hi] at he; exact he
    · exfalso
      rw [List.getElem?_append_right (by omega)] at he
      have := List.mem_of_getElem? he
      rw [List.mem_singleton.1 this] at ho
      exact hx ho
  cases last with
  | none => exact ⟨ha.1, ha.2.1, fun i e he ho => ha.2.2 i e (key i e he ho) ho⟩
  | some y =>
    cases y with
    | none => exact ⟨ha.1, ha.2.1, fun i e he ho => ha.2.2.1 i e (key i e he ho) ho, ha.2.2.2⟩
    | some i =>
      obtain ⟨h1, h2, h3, h4⟩ := ha
      refine ⟨h1, ?_, fun j e he ho hji => h3 j e (key j e he ho) ho hji, h4⟩
      have hi : i < posts.length := by
        apply Decidable.byContradiction
        intro hn
        rw [List.getElem?_eq_none (by omega)] at h2
        exact absurd h2 (by simp)
      rw [List.getElem?_append_left hi]; exact h2

theorem Inv.post {n : Nat} {held : Handle → Kind → Args → Bool → Prop} {last : Handle → Option (Option Nat)}
    {done : List Comp} {s : St} (hi : Inv n held last done s) {o : Nat} (k : Kind) (a : Args)
    (ho : o < s.objs.length) (hf : ∀ h, s.map h ≠ some o) : Inv n held last done (s.post o k a) := by
  refine ⟨hi.cnt, hi.small, hi.heldH, hi.mapH, hi.inj, hi.dom, ?_, ?_⟩
  · intro i e he
    simp only [St.post] at he
    by_cases hlt : i < s.posts.length
    · rw [List.getElem?_append_left hlt] at he; exact hi.postDom i e he
    · rw [List.getElem?_append_right (by omega)] at he
      rw [List.mem_singleton.1 (List.mem_of_getElem? he)]; exact ho
  · intro h k' a' p hh
    obtain ⟨o', ob, g1, g2, g3, g4, g5⟩ := hi.obj h k' a' p hh
    refine ⟨o', ob, g1, g2, g3, g4, act_post _ ?_ g5⟩
    intro hx
    exact hf h (by rw [g1, ← hx])

theorem Inv.upd {n : Nat} {held : Handle → Kind → Args → Bool → Prop} {last : Handle → Option (Option Nat)}
    {done : List Comp} {s : St} (hi : Inv n held last done s) {o : Nat} (f : Obj → Obj)
    (hf : ∀ h, s.map h ≠ some o) : Inv n held last done (s.upd o f) := by
  refine ⟨hi.cnt, hi.small, hi.heldH, hi.mapH, hi.inj, ?_, ?_, ?_⟩
  · intro h o' ho'
    simp only [St.upd, List.length_modify]; exact hi.dom h o' ho'
  · intro i e he
    simp only [St.upd, List.length_modify]; exact hi.postDom i e he
  · intro h k' a' p hh
    obtain ⟨o', ob, g1, g2, g3⟩ := hi.obj h k' a' p hh
    refine ⟨o', ob, g1, ?_, g3⟩
    simp only [St.upd]
    rw [List.getElem?_modify_ne]
    · exact g2
    · intro hx
      exact hf h (by rw [g1, ← hx])

/-- A request for an object that none names yet. -/
theorem Inv.add {n : Nat} {held : Handle → Kind → Args → Bool → Prop} {last : Handle → Option (Option Nat)}
    {done : List Comp} {s : St} (hi : Inv n held last done s) {o : Nat} {ob : Obj} {k : Kind} {a : Args} {p : Bool}
    {x : Option (Option Nat)} (hn : n < 0x2c000000) (hf : ∀ h, s.map h ≠ some o) (hob : s.objs[o]? = some ob)
    (hk : ob.kind = k) (hp : ob.pers = if p then some a else none) (ha : ActOk k a p o ob x done s.posts) :
    Inv (n + 1) (fun h k' a' p' => (h = BitVec.ofNat 32 n ∧ k' = k ∧ a' = a ∧ p' = p) ∨ held h k' a' p')
      (fun h => if h = BitVec.ofNat 32 n then x else last h) done (s.add o) := by
  have hc := hi.cnt
  have hne : ∀ m, m < n → BitVec.ofNat 32 m ≠ BitVec.ofNat 32 n := by
    intro m hm h
    have := ofNat_inj (by omega) (by omega) h
    omega
  refine ⟨by simp only [St.add]; omega, by omega, ?_, ?_, ?_, ?_, hi.postDom, ?_⟩
  · rintro h k' a' p' (⟨h1, -⟩ | h1)
    · exact ⟨n, by omega, h1⟩
    · obtain ⟨m, h2, h3⟩ := hi.heldH h k' a' p' h1
      exact ⟨m, by omega, h3⟩
  · intro h o' h1
    simp only [St.add] at h1
    split at h1
    · next h2 => exact ⟨n, by omega, by rw [h2, hc]⟩
    · obtain ⟨m, h2, h3⟩ := hi.mapH h o' h1
      exact ⟨m, by omega, h3⟩
  · intro h h' o' h1 h2
    simp only [St.add] at h1 h2
    split at h1
    · next e1 =>
      split at h2
      · next e2 => rw [e1, e2]
      · rw [← h1] at h2; exact absurd h2 (hf h')
    · split at h2
      · rw [← h2] at h1; exact absurd h1 (hf h)
      · exact hi.inj h h' o' h1 h2
  · intro h o' h1
    simp only [St.add] at h1 ⊢
    split at h1
    · rw [← Option.some.inj h1]
      exact (List.getElem?_eq_some_iff.1 hob).1
    · exact hi.dom h o' h1
  · rintro h k' a' p' (⟨h1, h2, h3, h4⟩ | h1)
    · subst h1 h2 h3 h4
      refine ⟨o, ob, ?_, hob, hk, hp, ?_⟩
      · simp only [St.add, hc, if_pos]
      · rw [if_pos rfl]; exact ha
    · obtain ⟨m, h2, h3⟩ := hi.heldH h k' a' p' h1
      obtain ⟨o', ob', g1, g2, g3⟩ := hi.obj h k' a' p' h1
      have : h ≠ BitVec.ofNat 32 n := by rw [h3]; exact hne m h2
      refine ⟨o', ob', ?_, g2, ?_⟩
      · simp only [St.add, hc]; rw [if_neg this]; exact g1
      · rw [if_neg this]; exact g3

theorem Inv.erase {n : Nat} {held : Handle → Kind → Args → Bool → Prop} {last : Handle → Option (Option Nat)}
    {done : List Comp} {s : St} (hi : Inv n held last done s) (h0 : Handle) :
    Inv n (fun h k a p => held h k a p ∧ h ≠ h0) last done (s.erase h0) := by
  refine ⟨hi.cnt, hi.small, fun h k a p hh => hi.heldH h k a p hh.1, ?_, ?_, ?_, hi.postDom, ?_⟩
  · intro h o h1
    simp only [St.erase] at h1
    split at h1
    · exact absurd h1 (by simp)
    · exact hi.mapH h o h1
  · intro h h' o h1 h2
    simp only [St.erase] at h1 h2
    split at h1
    · exact absurd h1 (by simp)
    · split at h2
      · exact absurd h2 (by simp)
      · exact hi.inj h h' o h1 h2
  · intro h o h1
    simp only [St.erase] at h1
    split at h1
    · exact absurd h1 (by simp)
    · exact hi.dom h o h1
  · intro h k a p hh
    obtain ⟨o, ob, g1, g2⟩ := hi.obj h k a p hh.1
    refine ⟨o, ob, ?_, g2⟩
    simp only [St.erase]
    rw [if_neg hh.2]; exact g1

/-- The start of a persistent request whose previous operation has ended. -/
theorem Inv.start {n : Nat} {held : Handle → Kind → Args → Bool → Prop} {last : Handle → Option (Option Nat)}
    {done : List Comp} {s : St} (hi : Inv n held last done s) {h0 : Handle} {o : Nat} {ob : Obj} {a : Args}
    (hm : s.map h0 = some o) (hob : s.objs[o]? = some ob) (hpers : ob.pers = some a)
    (hprev : ∀ i, last h0 = some (some i) → i ∈ done.map (·.1)) (hdone : ∀ c ∈ done, c.1 < s.posts.length) :
    Inv n held (fun h => if h = h0 then some (if a.peer = procNull then none else some s.posts.length) else last h) done
      (if a.peer = procNull then s.upd o (fun ob => { ob with complete := true })
       else (s.upd o (fun ob => { ob with complete := false })).post o ob.kind a) := by
  have hol := hi.dom h0 o hm
  refine ⟨?_, hi.small, hi.heldH, ?_, ?_, ?_, ?_, ?_⟩
  · split
    · exact hi.cnt
    · exact hi.cnt
  · split
    · exact hi.mapH
    · exact hi.mapH
  · split
    · exact hi.inj
    · exact hi.inj
  · intro h o' h1
    split at h1
    · rw [if_pos (by assumption)]
      simp only [St.upd, List.length_modify]; exact hi.dom h o' h1
    · rw [if_neg (by assumption)]
      simp only [St.upd, St.post, List.length_modify]; exact hi.dom h o' h1
  · intro i e he
    split at he
    · rw [if_pos (by assumption)]
      simp only [St.upd, List.length_modify]; exact hi.postDom i e he
    · rw [if_neg (by assumption)]
      simp only [St.upd, St.post, List.length_modify] at he ⊢
      by_cases hlt : i < s.posts.length
      · rw [List.getElem?_append_left hlt] at he; exact hi.postDom i e he
      · rw [List.getElem?_append_right (by omega)] at he
        rw [List.mem_singleton.1 (List.mem_of_getElem? he)]; exact hol
  · intro h k a' p hh
    obtain ⟨o', ob', g1, g2, g3, g4, g5⟩ := hi.obj h k a' p hh
    by_cases he : h = h0
    · subst he
      have : o' = o := by rw [hm] at g1; exact (Option.some.inj g1).symm
      subst this
      have : ob' = ob := by rw [hob] at g2; exact (Option.some.inj g2).symm
      subst this
      have hp : p = true ∧ a' = a := by
        rw [hpers] at g4
        split at g4
        · next hp => exact ⟨hp, (Option.some.inj g4).symm⟩
        · exact absurd g4 (by simp)
      obtain ⟨hp, ha⟩ := hp
      subst hp ha
      by_cases hnull : a'.peer = procNull
      · rw [if_pos hnull]
        refine ⟨o', { ob' with complete := true }, hm, ?_, g3, g4, ?_⟩
        · simp only [St.upd]; rw [List.getElem?_modify_eq, hob]; rfl
        · rw [if_pos rfl, if_pos hnull]
          refine ⟨hnull, rfl, ?_, by intro h; exact absurd h (by decide)⟩
          cases hl : last h with
          | none => rw [hl] at g5; exact g5.2.2
          | some x =>
            cases x with
            | none => rw [hl] at g5; exact g5.2.2.1
            | some i => rw [hl] at g5; exact absurd hnull g5.1
      · rw [if_neg hnull]
        refine ⟨o', { ob' with complete := false }, hm, ?_, g3, g4, ?_⟩
        · simp only [St.upd, St.post]; rw [List.getElem?_modify_eq, hob]; rfl
        · rw [if_pos rfl, if_neg hnull]
          have hnd : s.posts.length ∉ done.map (·.1) := by
            intro hx
            obtain ⟨c, hc1, hc2⟩ := List.mem_map.1 hx
            have := hdone c hc1
            omega
          refine ⟨hnull, ?_, ?_, ?_, ?_⟩
          · simp only [St.upd, St.post]
            rw [List.getElem?_append_right (Nat.le_refl _), Nat.sub_self, g3]; rfl
          · intro j e hj hej hji
            simp only [St.upd, St.post] at hj
            by_cases hlt : j < s.posts.length
            · rw [List.getElem?_append_left hlt] at hj
              cases hl : last h with
              | none => rw [hl] at g5; exact absurd hej (g5.2.2 j e hj)
              | some x =>
                cases x with
                | none => rw [hl] at g5; exact absurd hej (g5.2.2.1 j e hj)
                | some i =>
                  rw [hl] at g5
                  by_cases hjj : j = i
                  · rw [hjj]; exact hprev i hl
                  · exact g5.2.2.1 j e hj hej hjj
            · exfalso
              rw [List.getElem?_append_right (by omega)] at hj
              have : j - s.posts.length < 1 := by
                have := (List.getElem?_eq_some_iff.1 hj).1
                simpa using this
              omega
          · constructor
            · intro h; exact absurd h (by simp)
            · intro h; exact absurd h hnd
          · intro st hst
            exact absurd (List.mem_map_of_mem (f := (·.1)) hst) hnd
    · have hoo : o' ≠ o := by
        intro hx
        rw [hx] at g1
        exact he (hi.inj h h0 o g1 hm)
      by_cases hnull : a.peer = procNull
      · rw [if_pos hnull, if_neg he]
        refine ⟨o', ob', g1, ?_, g3, g4, g5⟩
        simp only [St.upd]; rw [List.getElem?_modify_ne _ _ (fun h => hoo h.symm)]; exact g2
      · rw [if_neg hnull, if_neg he]
        refine ⟨o', ob', g1, ?_, g3, g4, act_post _ (fun h => hoo h.symm) g5⟩
        simp only [St.upd, St.post]; rw [List.getElem?_modify_ne _ _ (fun h => hoo h.symm)]; exact g2

/-- The progress loop: what it does is to take completions, and the object is complete. -/
theorem progress_spec (ms : List Msg) {s s' : St} {o : Nat} {tk : List Comp} {rest : List Msg}
    (h : progress s o ms = some (s', tk, rest)) : s' = s.comps tk ∧ s'.isDone o = true := by
  induction ms generalizing s s' tk rest with
  | nil =>
    simp only [progress] at h
    split at h
    · next hd =>
      simp only [Option.some.injEq, Prod.mk.injEq] at h
      obtain ⟨h1, h2, -⟩ := h
      subst h1 h2
      exact ⟨rfl, hd⟩
    · exact absurd h (by simp)
  | cons m ms ih =>
    simp only [progress] at h
    split at h
    · next hd =>
      simp only [Option.some.injEq, Prod.mk.injEq] at h
      obtain ⟨h1, h2, -⟩ := h
      subst h1 h2
      exact ⟨rfl, hd⟩
    · cases hp : progress (s.comps m) o ms with
      | none => rw [hp] at h; exact absurd h (by simp)
      | some r =>
        obtain ⟨s1, tk1, r1⟩ := r
        rw [hp] at h
        simp only [Option.map_some, Option.some.injEq, Prod.mk.injEq] at h
        obtain ⟨h1, h2, h3⟩ := h
        subst h1 h2 h3
        obtain ⟨g1, g2⟩ := ih hp
        refine ⟨?_, g2⟩
        rw [g1]
        simp only [St.comps, List.foldl_append]

end SST.Mpi.Req
