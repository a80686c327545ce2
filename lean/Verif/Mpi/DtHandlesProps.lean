import Verif.Mpi.DtHandles
import Verif.Mpi.HandlesProps
/-!
C120: handles of datatypes.  The model is DtHandles.lean; the specification is a monitor that
follows the calls and their results and knows nothing of objects, pointers and tables.
-/
set_option autoImplicit false
namespace SST.Mpi.Dt
open SST.Mpi.Handles (Map Keys get_del get_put' mem_of_get get_of_mem)
open SST.Mpi.Types (Ty Blocks block repeatCopies shift)

/-! ### Specification -/

/-- A datatype as the user sees it: `ty` says what it describes; `own` numbers the types in the order
they were made (the predefined ones first); `uses` are the numbers of the types it was made from, and
its own; `copy` tells a handle that came from `MPI_Type_dup`. -/
structure RType where
  ty : Ty
  own : Nat
  uses : List Nat
  copy : Bool

/-- The live handles of a process, how many types were made, how many of them are predefined, and
which types were duplicated. -/
structure Ref where
  types : Map RType
  count : Nat
  pre : Nat
  dupped : List Nat

/-- After `MPI_Init`. -/
def Ref.init (bs : List (Nat × Nat)) : Ref :=
  { types := bs.mapIdx (fun i b => (b.1, ⟨.prim b.2, i, [i], false⟩)), count := bs.length, pre := bs.length, dupped := [] }

/-- A new type. -/
def Ref.make (r : Ref) (h : Nat) (t : Ty) (uses : List Nat) : Option Ref :=
  if (Map.get r.types h).isNone then
    some { r with types := Map.put r.types h ⟨t, r.count, r.count :: uses, false⟩, count := r.count + 1 }
  else none

/-- The fields of a structure with their types. -/
def Ref.fields (r : Ref) (l : List (Nat × Int × Nat)) : List (Nat × Int × Ty) :=
  l.filterMap (fun f => (Map.get r.types f.2.2).map (fun e => (f.1, f.2.1, e.ty)))

/-- The types that a structure is made of. -/
def Ref.usesOf (r : Ref) (l : List (Nat × Int × Nat)) : List Nat :=
  l.flatMap (fun f => match Map.get r.types f.2.2 with | some e => e.uses | none => [])

/-- What MPI allows as result of a call, and the live handles afterwards; `none`: this is not what the
call should return.  What the constructors describe is in Types.lean (C28). -/
def Ref.accept (r : Ref) (op : Op) (res : Res) : Option Ref :=
  match op, res with
  | .contiguous n h, .handle h' => (Map.get r.types h).bind (fun e => r.make h' (Types.contiguous n e.ty) e.uses)
  | .vector n k s h, .handle h' => (Map.get r.types h).bind (fun e => r.make h' (Types.vector n k s e.ty) e.uses)
  | .hvector n k s h, .handle h' => (Map.get r.types h).bind (fun e => r.make h' (Types.hvector n k s e.ty) e.uses)
  | .hindexed l h, .handle h' => (Map.get r.types h).bind (fun e => r.make h' (Types.hindexed l e.ty) e.uses)
  | .struct l, .handle h' => r.make h' (Types.struct (r.fields l)) (r.usesOf l)
  | .dup h, .handle h' =>
    match Map.get r.types h with
    | some e =>
      if (Map.get r.types h').isNone then
        some { r with types := Map.put r.types h' { e with copy := true }, dupped := e.own :: r.dupped }
      else none
    | none => none
  | .free h, .unit => some { r with types := Map.del r.types h }
  | .size h, .num v =>
    match Map.get r.types h with
    | some e => if v = e.ty.size then some r else none
    | none => none
  | .extent h, .num v =>
    match Map.get r.types h with
    | some e => if v = e.ty.extent then some r else none
    | none => none
  | .transfer h cnt, .copies l =>
    match Map.get r.types h with
    | some e => if l = Types.xfer e.ty cnt then some r else none
    | none => none
  | .userType h, .num v => if v = h then some r else none
  | .foreignDup b _, .unit => some { r with dupped := b :: r.dupped }
  | _, _ => none

/-- The calls a correct MPI program may make: handles are live, predefined datatypes are not freed. -/
def valid (r : Ref) : Op → Bool
  | .contiguous _ h | .vector _ _ _ h | .hvector _ _ _ h | .hindexed _ h | .dup h | .size h | .extent h
  | .transfer h _ | .userType h => (Map.get r.types h).isSome
  | .struct l => l.all (fun f => f.1 == 0 || (Map.get r.types f.2.2).isSome)
  | .free h =>
    match Map.get r.types h with
    | some e => e.copy || r.pre ≤ e.own
    | none => false
  | .foreignDup b _ => b < r.pre

/-- The calls a program has to restrict itself to: a handle made by a constructor is freed only when no
other live handle is a duplicate of it or was made from it, and a user-defined reduction does not use a
datatype that any process has duplicated. -/
def careful (r : Ref) (op : Op) : Bool :=
  valid r op &&
  match op with
  | .free h =>
    match Map.get r.types h with
    | some e => e.copy || r.types.all (fun f => f.1 == h || !f.2.uses.contains e.own)
    | none => false
  | .userType h =>
    match Map.get r.types h with
    | some e => !r.dupped.contains e.own
    | none => false
  | _ => true

/-- What a run comes to. -/
inductive Verdict where
  /-- all calls returned what they should -/
  | fine (s : St) (r : Ref)
  /-- the program made a call it should not make -/
  | misuse
  /-- a call failed -/
  | failed (e : Fail)
  /-- a call returned something else -/
  | wrong

/-- Runs calls and checks each result; `ok` are the calls the program may make. -/
def drive (ok : Ref → Op → Bool) (s : St) (r : Ref) : List Op → Verdict
  | [] => .fine s r
  | op :: ops =>
    if ok r op then
      match step s op with
      | .error e => .failed e
      | .ok (s', res) =>
        match r.accept op res with
        | none => .wrong
        | some r' => drive ok s' r' ops
    else .misuse

/-! ### Fresh numbers -/

theorem nextId_free (known : Map Nat) : ∀ (k n : Nat), (∃ i, n ≤ i ∧ i < n + k ∧ Map.get known i = none) →
    Map.get known (nextId known k n) = none
  | 0, n, h => by obtain ⟨i, h1, h2, _⟩ := h; omega
  | k + 1, n, h => by
    rw [nextId]
    split
    · next hs =>
      obtain ⟨i, h1, h2, h3⟩ := h
      refine nextId_free known k (n + 1) ⟨i, ?_, by omega, h3⟩
      rcases Nat.lt_or_ge n i with h4 | h4
      · exact h4
      · have : i = n := by omega
        subst this
        rw [h3] at hs
        cases hs
    · next hs => exact Option.not_isSome_iff_eq_none.1 hs

theorem nodup_sub : ∀ (l l' : List Nat), l.Nodup → (∀ x ∈ l, x ∈ l') → l.length ≤ l'.length
  | [], _, _, _ => Nat.zero_le _
  | x :: l, l', hn, hm => by
    rw [List.nodup_cons] at hn
    have hx := hm x (by simp)
    have := nodup_sub l (l'.erase x) hn.2 (fun y hy => by
      have h1 := hm y (by simp [hy])
      have h2 : y ≠ x := fun h => hn.1 (by rw [← h]; exact hy)
      exact (List.mem_erase_of_ne h2).mpr h1)
    rw [List.length_erase_of_mem hx] at this
    have := List.length_pos_of_mem hx
    simp only [List.length_cons]
    omega

theorem nextId_fresh (known : Map Nat) (n : Nat) : Map.get known (nextId known (known.length + 1) n) = none := by
  apply nextId_free
  apply Classical.byContradiction
  intro hc
  have hall : ∀ i ∈ List.range' n (known.length + 1), i ∈ known.map Prod.fst := by
    intro i hi
    rw [List.mem_range'_1] at hi
    cases hg : Map.get known i with
    | none => exact absurd ⟨i, hi.1, by omega, hg⟩ hc
    | some v => exact List.mem_map.2 ⟨_, mem_of_get known i v hg, rfl⟩
  have := nodup_sub _ _ List.nodup_range' hall
  rw [List.length_range', List.length_map] at this
  omega

/-! ### Objects and what they describe -/

/-- The object behind a pointer: live, with the fields of the type, in the set `U`. -/
def Head (heap : List Obj) (U : List Nat) (t : Ty) (p : Nat) (o : Obj) : Prop :=
  heap[p]? = some o ∧ o.live = true ∧ p ∈ U ∧ o.size = t.size ∧ o.extent = t.extent ∧ o.contig = t.contig

mutual
/-- The object at `p` describes the type; all objects it needs are live and in `U`. -/
def Rep (heap : List Obj) (U : List Nat) : Ty → Nat → Prop
  | .prim n, p => ∃ o, Head heap U (.prim n) p o ∧ o.kind = .prim
  | .vec b c k s, p => ∃ o q, Head heap U (.vec b c k s) p o ∧ o.kind = .vec q c k s ∧ q < p ∧ Rep heap U b q
  | .ind bs e, p => ∃ o l, Head heap U (.ind bs e) p o ∧ o.kind = .ind l ∧ RepB heap U bs l p
/-- The same for the blocks of an indexed type at `p`. -/
def RepB (heap : List Obj) (U : List Nat) : Blocks → List (Nat × Int × Nat) → Nat → Prop
  | .nil, l, _ => l = []
  | .cons b d n r, l, p => ∃ q l', l = (q, d, n) :: l' ∧ q < p ∧ Rep heap U b q ∧ RepB heap U r l' p
end

theorem Rep.head {heap : List Obj} {U : List Nat} {t : Ty} {p : Nat} (h : Rep heap U t p) : ∃ o, Head heap U t p o := by
  match t with
  | .prim n => rw [Rep] at h; obtain ⟨o, h, _⟩ := h; exact ⟨o, h⟩
  | .vec b c k s => rw [Rep] at h; obtain ⟨o, q, h, _⟩ := h; exact ⟨o, h⟩
  | .ind bs e => rw [Rep] at h; obtain ⟨o, q, h, _⟩ := h; exact ⟨o, h⟩

/-- The objects of `U` keep all fields but the number. -/
def Same (heap heap' : List Obj) (U : List Nat) : Prop :=
  ∀ p ∈ U, ∀ o, heap[p]? = some o → ∃ o', heap'[p]? = some o' ∧ { o' with id := o.id } = o

theorem Head.mono {heap heap' : List Obj} {U U' : List Nat} {t : Ty} {p : Nat} {o : Obj} (hs : Same heap heap' U) (hu : ∀ x ∈ U, x ∈ U')
    (h : Head heap U t p o) : ∃ o', Head heap' U' t p o' ∧ o'.kind = o.kind := by
  obtain ⟨h1, h2, h3, h4, h5, h6⟩ := h
  obtain ⟨o', e1, e2⟩ := hs p h3 o h1
  rw [← e2] at h2 h4 h5 h6
  exact ⟨o', ⟨e1, h2, hu _ h3, h4, h5, h6⟩, by rw [← e2]⟩

mutual
theorem Rep.mono {heap heap' : List Obj} {U U' : List Nat} (hs : Same heap heap' U) (hu : ∀ x ∈ U, x ∈ U') :
    ∀ (t : Ty) (p : Nat), Rep heap U t p → Rep heap' U' t p
  | .prim n, p, h => by
    rw [Rep] at h ⊢
    obtain ⟨o, h, hk⟩ := h
    obtain ⟨o', h', hk'⟩ := h.mono hs hu
    exact ⟨o', h', hk'.trans hk⟩
  | .vec b c k s, p, h => by
    rw [Rep] at h ⊢
    obtain ⟨o, q, h, hk, hq, hb⟩ := h
    obtain ⟨o', h', hk'⟩ := h.mono hs hu
    exact ⟨o', q, h', hk'.trans hk, hq, Rep.mono hs hu b q hb⟩
  | .ind bs e, p, h => by
    rw [Rep] at h ⊢
    obtain ⟨o, l, h, hk, hb⟩ := h
    obtain ⟨o', h', hk'⟩ := h.mono hs hu
    exact ⟨o', l, h', hk'.trans hk, RepB.mono hs hu bs l p hb⟩
theorem RepB.mono {heap heap' : List Obj} {U U' : List Nat} (hs : Same heap heap' U) (hu : ∀ x ∈ U, x ∈ U') :
    ∀ (bs : Blocks) (l : List (Nat × Int × Nat)) (p : Nat), RepB heap U bs l p → RepB heap' U' bs l p
  | .nil, l, p, h => by rw [RepB] at h ⊢; exact h
  | .cons b d n r, l, p, h => by
    rw [RepB] at h ⊢
    obtain ⟨q, l', h1, h2, h3, h4⟩ := h
    exact ⟨q, l', h1, h2, Rep.mono hs hu b q h3, RepB.mono hs hu r l' p h4⟩
end

theorem obj_head {heap : List Obj} {U : List Nat} {t : Ty} {p : Nat} {o : Obj} (h : Head heap U t p o) : obj heap p = .ok o := by
  unfold obj
  rw [h.1]
  simp only [h.2.1, if_true]

mutual
/-- Packing through pointers is packing by the type. -/
theorem pack_rep {heap : List Obj} {U : List Nat} : ∀ (t : Ty) (p k : Nat), Rep heap U t p → p < k → pack heap k p = .ok t.copies
  | .prim n, p, k, h, hk => by
    obtain ⟨k, rfl⟩ : ∃ j, k = j + 1 := ⟨k - 1, by omega⟩
    rw [Rep] at h
    obtain ⟨o, h, hkind⟩ := h
    rw [pack, obj_head h]
    show (match o.kind with | .prim => _ | .vec b c _ s => _ | .ind bs => _) = _
    rw [hkind]
    have : o.size = n := h.2.2.2.1
    simp only [this, Ty.copies]
  | .vec b c bl s, p, k, h, hk => by
    obtain ⟨k, rfl⟩ : ∃ j, k = j + 1 := ⟨k - 1, by omega⟩
    rw [Rep] at h
    obtain ⟨o, q, h, hkind, hq, hb⟩ := h
    obtain ⟨ob, hob⟩ := hb.head
    rw [pack, obj_head h]
    show (match o.kind with | .prim => _ | .vec b c _ s => _ | .ind bs => _) = _
    rw [hkind]
    show (do let ob ← obj heap q; if c = 0 then _ else (pack heap k q).map (repeatCopies c ob.size s)) = _
    rw [obj_head hob]
    show (if c = 0 then .ok [] else (pack heap k q).map (repeatCopies c ob.size s)) = _
    rw [Ty.copies]
    by_cases hc : c = 0
    · rw [if_pos hc, hc]; rfl
    · rw [if_neg hc, pack_rep b q k hb (by omega), hob.2.2.2.1]; rfl
  | .ind bs e, p, k, h, hk => by
    obtain ⟨k, rfl⟩ : ∃ j, k = j + 1 := ⟨k - 1, by omega⟩
    rw [Rep] at h
    obtain ⟨o, l, h, hkind, hb⟩ := h
    rw [pack, obj_head h]
    show (match o.kind with | .prim => _ | .vec b c _ s => _ | .ind bs => _) = _
    rw [hkind, Ty.copies]
    exact pack_repB bs l p k hb (by omega)
theorem pack_repB {heap : List Obj} {U : List Nat} : ∀ (bs : Blocks) (l : List (Nat × Int × Nat)) (p k : Nat), RepB heap U bs l p → p ≤ k →
    packBlocks heap (pack heap k) l = .ok bs.copies
  | .nil, l, p, k, h, hk => by rw [RepB] at h; subst h; rfl
  | .cons b d n r, l, p, k, h, hk => by
    rw [RepB] at h
    obtain ⟨q, l', rfl, hq, hb, hr⟩ := h
    obtain ⟨ob, hob⟩ := hb.head
    have e1 := hob.2.2.2.1
    have e2 := hob.2.2.2.2.1
    have e3 := hob.2.2.2.2.2
    rw [Blocks.copies]
    have ihr := pack_repB r l' p k hr hk
    have ihb := pack_rep b q k hb (by omega)
    cases hc : b.contig
    · rw [hc] at e3
      simp [packBlocks, obj_head hob, ihr, ihb, e1, e2, e3, bind, Except.bind, Except.map]
    · rw [hc] at e3
      simp [packBlocks, obj_head hob, ihr, e1, e2, e3, bind, Except.bind]
end

theorem xfer_rep {heap : List Obj} {U : List Nat} {t : Ty} {p : Nat} (h : Rep heap U t p) (cnt : Nat) :
    xfer heap p cnt = .ok (Types.xfer t cnt) := by
  obtain ⟨o, ho⟩ := h.head
  have hlt : p < heap.length := by
    rcases Nat.lt_or_ge p heap.length with h' | h'
    · exact h'
    · have := ho.1; rw [List.getElem?_eq_none h'] at this; cases this
  unfold xfer
  rw [obj_head ho]
  show (if o.contig then .ok (block (cnt * o.size)) else
    if cnt = 0 then .ok [] else (pack heap (heap.length + 1) p).map (repeatCopies cnt o.size o.extent)) = _
  unfold Types.xfer
  rw [ho.2.2.2.1, ho.2.2.2.2.1, ho.2.2.2.2.2]
  cases t.contig
  · simp only [Bool.false_eq_true, if_false]
    by_cases hc : cnt = 0
    · rw [if_pos hc, hc]; rfl
    · rw [if_neg hc, pack_rep t p _ h (by omega)]; rfl
  · rw [if_pos rfl, if_pos rfl]

/-! ### Changes of the heap -/

theorem same_append (heap : List Obj) (o : Obj) (U : List Nat) : Same heap (heap ++ [o]) U := by
  intro p _ o' h
  refine ⟨o', ?_, rfl⟩
  rw [List.getElem?_append_left ?_, h]
  rcases Nat.lt_or_ge p heap.length with h' | h'
  · exact h'
  · rw [List.getElem?_eq_none h'] at h; cases h

theorem modify_ne (heap : List Obj) (q p : Nat) (f : Obj → Obj) (h : q ≠ p) : (heap.modify q f)[p]? = heap[p]? := by
  rw [List.getElem?_modify]
  cases heap[p]? <;> simp [h]

theorem same_setId (heap : List Obj) (q id : Nat) (U : List Nat) : Same heap (setId heap q id) U := by
  intro p _ o h
  unfold setId
  rw [List.getElem?_modify, h]
  by_cases hq : q = p
  · exact ⟨{ o with id := id }, by simp [hq], rfl⟩
  · exact ⟨o, by simp [hq], rfl⟩

theorem same_kill (heap : List Obj) (q : Nat) (U : List Nat) (hq : q ∉ U) : Same heap (kill heap q) U := by
  intro p hp o h
  unfold kill
  have hne : ¬ q = p := fun e => hq (e ▸ hp)
  rw [List.getElem?_modify, h]
  exact ⟨o, by simp [hne], rfl⟩

/-! ### The invariant -/

/-- The tables agree with what the user sees. -/
structure Inv (s : St) (r : Ref) : Prop where
  count : r.count = s.heap.length
  pre : r.pre ≤ r.count
  known : ∀ h, Map.get s.known h = (Map.get r.types h).map RType.own
  rep : ∀ h e, Map.get r.types h = some e → Rep s.heap e.uses e.ty e.own
  owned : ∀ h p, Map.get s.owned h = some p → ∃ e, Map.get r.types h = some e ∧ e.own = p ∧ e.copy = false
  ids : ∀ h e o, Map.get r.types h = some e → e.own ∉ r.dupped → s.heap[e.own]? = some o → o.id = h
  uses : ∀ h e, Map.get r.types h = some e → e.own ∈ e.uses

theorem Inv.lt {s : St} {r : Ref} (hi : Inv s r) {h : Nat} {e : RType} (he : Map.get r.types h = some e) : e.own < s.heap.length := by
  obtain ⟨o, ho⟩ := (hi.rep h e he).head
  rcases Nat.lt_or_ge e.own s.heap.length with h' | h'
  · exact h'
  · have := ho.1; rw [List.getElem?_eq_none h'] at this; cases this

theorem Inv.ptr {s : St} {r : Ref} (hi : Inv s r) {h : Nat} {e : RType} (he : Map.get r.types h = some e) : s.ptr h = .ok e.own := by
  unfold St.ptr
  rw [hi.known, he]
  rfl

/-- A new object for a new type. -/
theorem Inv.add {s : St} {r : Ref} (hi : Inv s r) (o : Obj) (t : Ty) (uses : List Nat)
    (hrep : Rep (s.heap ++ [{ o with id := nextId s.known (s.known.length + 1) s.next }]) (s.heap.length :: uses) t s.heap.length) :
    ∃ r', r.make (nextId s.known (s.known.length + 1) s.next) t uses = some r' ∧ Inv (s.add o).1 r' := by
  have hfresh := nextId_fresh s.known s.next
  have hnone : Map.get r.types (nextId s.known (s.known.length + 1) s.next) = none := by
    have := hi.known (nextId s.known (s.known.length + 1) s.next)
    rw [hfresh] at this
    cases hg : Map.get r.types (nextId s.known (s.known.length + 1) s.next) with
    | none => rfl
    | some e => rw [hg] at this; cases this
  generalize hid : nextId s.known (s.known.length + 1) s.next = id at *
  refine ⟨_, by unfold Ref.make; rw [hnone]; rfl, ?_⟩
  unfold St.add
  simp only [hid]
  constructor
  · simp [hi.count]
  · have := hi.pre; show r.pre ≤ r.count + 1; omega
  · intro h
    simp only [get_put']
    split
    · simp [hi.count]
    · exact hi.known h
  · intro h e he
    simp only [get_put'] at he
    split at he
    · cases he
      simp only [hi.count]
      exact hrep
    · exact Rep.mono (same_append _ _ _) (fun _ hx => hx) _ _ (hi.rep h e he)
  · intro h p hp
    simp only [get_put'] at hp ⊢
    split at hp
    · next hh => rw [if_pos hh]; cases hp; exact ⟨_, rfl, hi.count, rfl⟩
    · next hh => rw [if_neg hh]; exact hi.owned h p hp
  · intro h e o' he hd ho'
    simp only [get_put'] at he
    split at he
    · next hh =>
      cases he
      simp only [hi.count, List.getElem?_concat_length, Option.some.injEq] at ho'
      subst ho'
      exact hh
    · have hlt := hi.lt he
      rw [List.getElem?_append_left hlt] at ho'
      exact hi.ids h e o' he hd ho'
  · intro h e he
    simp only [get_put'] at he
    split at he
    · cases he; simp
    · exact hi.uses h e he

theorem hblocks_rep {heap : List Obj} {U : List Nat} {t : Ty} {q p : Nat} (hq : q < p) (h : Rep heap U t q) : ∀ (l : List (Nat × Int)) (ext : Int),
    RepB heap U (Types.hindexedBlocks t ext l).1 (hblocks q t.size ext l).1 p ∧
    (hblocks q t.size ext l).2.1 = (Types.hindexedBlocks t ext l).1.size ∧
    (hblocks q t.size ext l).2.2 = (Types.hindexedBlocks t ext l).2
  | [], ext => ⟨by rw [Types.hindexedBlocks, RepB]; rfl, rfl, rfl⟩
  | (len, disp) :: l, ext => by
    rw [Types.hindexedBlocks, hblocks]
    split
    · have ih := hblocks_rep hq h l (ext + disp)
      refine ⟨?_, ?_, ih.2.2⟩
      · simp only [RepB]; exact ⟨q, _, rfl, hq, h, ih.1⟩
      · simp only [Blocks.size]; rw [ih.2.1]
    · exact hblocks_rep hq h l ext

theorem sblocks_rep {s : St} {r : Ref} (hi : Inv s r) {heap : List Obj} {p : Nat} (hp : s.heap.length ≤ p) (hs : ∀ U, Same s.heap heap U) :
    ∀ (l : List (Nat × Int × Nat)) (ext : Int) (U : List Nat), (∀ x ∈ r.usesOf l, x ∈ U) → (∀ f ∈ l, f.1 ≠ 0 → (Map.get r.types f.2.2).isSome) →
    ∃ bs sz e, sblocks s ext l = .ok (bs, sz, e) ∧ RepB heap U (Types.structBlocks ext (r.fields l)).1 bs p ∧
      sz = (Types.structBlocks ext (r.fields l)).1.size ∧ e = (Types.structBlocks ext (r.fields l)).2
  | [], ext, U, _, _ => ⟨[], 0, ext, rfl, by rw [Ref.fields]; simp [Types.structBlocks, RepB], rfl, rfl⟩
  | (len, disp, h) :: l, ext, U, hu, hv => by
    have huse : r.usesOf ((len, disp, h) :: l) =
        (match Map.get r.types h with | some e => e.uses | none => []) ++ r.usesOf l := by
      simp [Ref.usesOf]
    rw [huse] at hu
    have hu' : ∀ x ∈ r.usesOf l, x ∈ U := fun x hx => hu x (List.mem_append_right _ hx)
    have hv' : ∀ f ∈ l, f.1 ≠ 0 → (Map.get r.types f.2.2).isSome := fun f hf => hv f (List.mem_cons_of_mem _ hf)
    rw [sblocks]
    cases hg : Map.get r.types h with
    | none =>
      have hl0 : ¬ len > 0 := by
        intro hlen
        have := hv (len, disp, h) (by simp) (by simp only; omega)
        simp only [hg] at this
        cases this
      have hf : r.fields ((len, disp, h) :: l) = r.fields l := by simp [Ref.fields, hg]
      rw [if_neg hl0, hf]
      exact sblocks_rep hi hp hs l ext U hu' hv'
    | some e =>
      have hf : r.fields ((len, disp, h) :: l) = (len, disp, e.ty) :: r.fields l := by simp [Ref.fields, hg]
      rw [hf, Types.structBlocks]
      rw [hg] at hu
      by_cases hlen : len > 0
      · rw [if_pos hlen, if_pos hlen]
        have hrep := hi.rep h e hg
        obtain ⟨o, ho⟩ := hrep.head
        obtain ⟨bs, sz, ex, h1, h2, h3, h4⟩ := sblocks_rep hi hp hs l (disp + e.ty.size * len) U hu' hv'
        refine ⟨(e.own, disp, len) :: bs, e.ty.size * len + sz, ex, ?_, ?_, ?_, h4⟩
        · rw [hi.ptr hg]
          show (do let o ← obj s.heap e.own
                   let r ← sblocks s (disp + o.size * len) l
                   .ok ((e.own, disp, len) :: r.1, o.size * len + r.2.1, r.2.2)) = _
          rw [obj_head ho]
          show (do let r ← sblocks s (disp + o.size * len) l
                   .ok ((e.own, disp, len) :: r.1, o.size * len + r.2.1, r.2.2)) = _
          rw [ho.2.2.2.1, h1]
          rfl
        · simp only [RepB]
          exact ⟨e.own, bs, rfl, Nat.lt_of_lt_of_le (hi.lt hg) hp,
            Rep.mono (hs _) (fun x hx => hu x (List.mem_append_left _ hx)) _ _ hrep, h2⟩
        · simp only [Blocks.size]; rw [h3]
      · rw [if_neg hlen, if_neg hlen]
        exact sblocks_rep hi hp hs l ext U hu' hv'

theorem get_last {heap : List Obj} {o : Obj} : (heap ++ [o])[heap.length]? = some o := by simp

theorem vec_rep {s : St} {r : Ref} (hi : Inv s r) {h : Nat} {e : RType} (he : Map.get r.types h = some e) {o : Obj}
    (ho : Head s.heap e.uses e.ty e.own o) (count blocklen : Nat) (stride : Int) (id : Nat) :
    Rep (s.heap ++ [{ mkVec e.own o count blocklen stride with id := id }]) (s.heap.length :: e.uses) (.vec e.ty count blocklen stride) s.heap.length := by
  rw [Rep]
  refine ⟨_, e.own, ⟨get_last, rfl, by simp, ?_, rfl, ?_⟩, rfl, hi.lt he, ?_⟩
  · show count * blocklen * o.size = _
    rw [ho.2.2.2.1, Ty.size]
  · show (decide (stride = blocklen * o.extent) && o.contig) = _
    rw [ho.2.2.2.2.1, ho.2.2.2.2.2, Ty.contig]
  · exact Rep.mono (same_append _ _ _) (fun x hx => List.mem_cons_of_mem _ hx) _ _ (hi.rep h e he)

theorem step_inv {s : St} {r : Ref} (hi : Inv s r) (op : Op) (hc : careful r op = true) :
    ∃ s' res r', step s op = .ok (s', res) ∧ r.accept op res = some r' ∧ Inv s' r' := by
  unfold careful at hc
  rw [Bool.and_eq_true] at hc
  obtain ⟨hv, hc⟩ := hc
  cases op with
  | contiguous n h =>
    obtain ⟨e, he⟩ := Option.isSome_iff_exists.1 (show (Map.get r.types h).isSome = true from hv)
    obtain ⟨o, ho⟩ := (hi.rep h e he).head
    obtain ⟨r', h1, h2⟩ := hi.add (mkVec e.own o n 1 (n * o.extent)) (.vec e.ty n 1 (n * o.extent)) e.uses (vec_rep hi he ho n 1 _ _)
    refine ⟨_, .handle (nextId s.known (s.known.length + 1) s.next), r', ?_, ?_, h2⟩
    · show (do let p ← s.ptr h; let o ← obj s.heap p; .ok (s.add (mkVec p o n 1 (n * o.extent)))) = _
      rw [hi.ptr he]
      show (do let o ← obj s.heap e.own; .ok (s.add (mkVec e.own o n 1 (n * o.extent)))) = _
      rw [obj_head ho]
      rfl
    · show (Map.get r.types h).bind (fun e => r.make _ (Types.contiguous n e.ty) e.uses) = _
      rw [he, ho.2.2.2.2.1] at *
      exact h1
  | vector n k st h =>
    obtain ⟨e, he⟩ := Option.isSome_iff_exists.1 (show (Map.get r.types h).isSome = true from hv)
    obtain ⟨o, ho⟩ := (hi.rep h e he).head
    obtain ⟨r', h1, h2⟩ := hi.add (mkVec e.own o n k (st * o.extent)) (.vec e.ty n k (st * o.extent)) e.uses (vec_rep hi he ho n k _ _)
    refine ⟨_, .handle (nextId s.known (s.known.length + 1) s.next), r', ?_, ?_, h2⟩
    · show (do let p ← s.ptr h; let o ← obj s.heap p; .ok (s.add (mkVec p o n k (st * o.extent)))) = _
      rw [hi.ptr he]
      show (do let o ← obj s.heap e.own; .ok (s.add (mkVec e.own o n k (st * o.extent)))) = _
      rw [obj_head ho]
      rfl
    · show (Map.get r.types h).bind (fun e => r.make _ (Types.vector n k st e.ty) e.uses) = _
      rw [he, ho.2.2.2.2.1] at *
      exact h1
  | hvector n k st h =>
    obtain ⟨e, he⟩ := Option.isSome_iff_exists.1 (show (Map.get r.types h).isSome = true from hv)
    obtain ⟨o, ho⟩ := (hi.rep h e he).head
    obtain ⟨r', h1, h2⟩ := hi.add (mkVec e.own o n k st) (.vec e.ty n k st) e.uses (vec_rep hi he ho n k _ _)
    refine ⟨_, .handle (nextId s.known (s.known.length + 1) s.next), r', ?_, ?_, h2⟩
    · show (do let p ← s.ptr h; let o ← obj s.heap p; .ok (s.add (mkVec p o n k st))) = _
      rw [hi.ptr he]
      show (do let o ← obj s.heap e.own; .ok (s.add (mkVec e.own o n k st))) = _
      rw [obj_head ho]
      rfl
    · show (Map.get r.types h).bind (fun e => r.make _ (Types.hvector n k st e.ty) e.uses) = _
      rw [he]
      exact h1
  | hindexed l h =>
    obtain ⟨e, he⟩ := Option.isSome_iff_exists.1 (show (Map.get r.types h).isSome = true from hv)
    obtain ⟨o, ho⟩ := (hi.rep h e he).head
    have hsz := ho.2.2.2.1
    have hrep : ∀ id, Rep (s.heap ++ [{ mkInd (hblocks e.own e.ty.size 0 l).1 (hblocks e.own e.ty.size 0 l).2.1 (hblocks e.own e.ty.size 0 l).2.2 with id := id }])
        (s.heap.length :: e.uses) (Types.hindexed l e.ty) s.heap.length := by
      intro id
      have hb := fun id => hblocks_rep (p := s.heap.length) (hi.lt he)
        (Rep.mono (U' := s.heap.length :: e.uses)
          (same_append s.heap { mkInd (hblocks e.own e.ty.size 0 l).1 (hblocks e.own e.ty.size 0 l).2.1 (hblocks e.own e.ty.size 0 l).2.2 with id := id } _)
          (fun x hx => List.mem_cons_of_mem _ hx) _ _ (hi.rep h e he)) l 0
      have hb := hb id
      unfold Types.hindexed
      rw [Rep]
      refine ⟨_, _, ⟨get_last, rfl, by simp, hb.2.1, hb.2.2, ?_⟩, rfl, hb.1⟩
      show decide ((hblocks e.own e.ty.size 0 l).2.2 = ((hblocks e.own e.ty.size 0 l).2.1 : Nat)) = _
      rw [hb.2.1, hb.2.2, Ty.contig]
    obtain ⟨r', h1, h2⟩ := hi.add _ (Types.hindexed l e.ty) e.uses (hrep _)
    refine ⟨_, .handle (nextId s.known (s.known.length + 1) s.next), r', ?_, ?_, h2⟩
    · show (do let p ← s.ptr h; let o ← obj s.heap p; let r := hblocks p o.size 0 l; .ok (s.add (mkInd r.1 r.2.1 r.2.2))) = _
      rw [hi.ptr he]
      show (do let o ← obj s.heap e.own; let r := hblocks e.own o.size 0 l; .ok (s.add (mkInd r.1 r.2.1 r.2.2))) = _
      rw [obj_head ho, ← hsz]
      rfl
    · show (Map.get r.types h).bind (fun e => r.make _ (Types.hindexed l e.ty) e.uses) = _
      rw [he]
      exact h1
  | struct l =>
    have hv' : ∀ f ∈ l, f.1 ≠ 0 → (Map.get r.types f.2.2).isSome := by
      intro f hf h0
      have := List.all_eq_true.1 (show l.all (fun f => f.1 == 0 || (Map.get r.types f.2.2).isSome) = true from hv) f hf
      simpa [h0] using this
    have hs := fun (o : Obj) (U : List Nat) => same_append s.heap o U
    obtain ⟨bs, sz, ex, h0, _⟩ := sblocks_rep hi (Nat.le_refl _) (fun U => hs (mkInd [] 0 0) U) l 0 (r.usesOf l) (fun x hx => hx) hv'
    have hrep : ∀ id, Rep (s.heap ++ [{ mkInd bs sz ex with id := id }]) (s.heap.length :: r.usesOf l) (Types.struct (r.fields l)) s.heap.length := by
      intro id
      obtain ⟨bs', sz', ex', g0, g1, g2, g3⟩ := sblocks_rep hi (Nat.le_refl _) (fun U => hs { mkInd bs sz ex with id := id } U) l 0
        (s.heap.length :: r.usesOf l) (fun x hx => List.mem_cons_of_mem _ hx) hv'
      rw [h0] at g0
      cases g0
      unfold Types.struct
      rw [Rep]
      refine ⟨_, _, ⟨get_last, rfl, by simp, g2, g3, ?_⟩, rfl, g1⟩
      show decide (ex = (sz : Nat)) = _
      rw [g2, g3, Ty.contig]
    obtain ⟨r', h1, h2⟩ := hi.add _ (Types.struct (r.fields l)) (r.usesOf l) (hrep _)
    refine ⟨_, .handle (nextId s.known (s.known.length + 1) s.next), r', ?_, h1, h2⟩
    show (do let r ← sblocks s 0 l; .ok (s.add (mkInd r.1 r.2.1 r.2.2))) = _
    rw [h0]
    rfl
  | dup h =>
    obtain ⟨e, he⟩ := Option.isSome_iff_exists.1 (show (Map.get r.types h).isSome = true from hv)
    obtain ⟨o, ho⟩ := (hi.rep h e he).head
    have hfresh := nextId_fresh s.known s.next
    have hnone : Map.get r.types (nextId s.known (s.known.length + 1) s.next) = none := by
      have := hi.known (nextId s.known (s.known.length + 1) s.next)
      rw [hfresh] at this
      cases hg : Map.get r.types (nextId s.known (s.known.length + 1) s.next) with
      | none => rfl
      | some e => rw [hg] at this; cases this
    generalize hid : nextId s.known (s.known.length + 1) s.next = id at *
    refine ⟨{ s with heap := setId s.heap e.own id, known := Map.put s.known id e.own, next := id }, .handle id,
      { r with types := Map.put r.types id { e with copy := true }, dupped := e.own :: r.dupped }, ?_, ?_, ?_⟩
    · show (do let p ← s.ptr h; let _ ← obj s.heap p; _) = _
      rw [hi.ptr he]
      show (do let _ ← obj s.heap e.own; _) = _
      rw [obj_head ho, hid]
      rfl
    · simp only [Ref.accept, he, hnone, Option.isNone_none, if_true]
    · constructor
      · show r.count = (setId s.heap e.own id).length
        unfold setId; rw [List.length_modify]; exact hi.count
      · exact hi.pre
      · intro h'
        simp only [get_put']
        split
        · rfl
        · exact hi.known h'
      · intro h' e' he'
        simp only [get_put'] at he'
        split at he'
        · cases he'
          exact Rep.mono (same_setId _ _ _ _) (fun _ hx => hx) _ _ (hi.rep h e he)
        · exact Rep.mono (same_setId _ _ _ _) (fun _ hx => hx) _ _ (hi.rep h' e' he')
      · intro h' p hp
        obtain ⟨e', g1, g2⟩ := hi.owned h' p hp
        refine ⟨e', ?_, g2⟩
        simp only [get_put']
        rw [if_neg (fun hh => by rw [hh, g1] at hnone; cases hnone)]
        exact g1
      · intro h' e' o' he' hd ho'
        simp only [List.mem_cons, not_or] at hd
        simp only [get_put'] at he'
        split at he'
        · cases he'; exact absurd rfl hd.1
        · exact hi.ids h' e' o' he' hd.2 ((modify_ne _ _ _ _ (fun hh => hd.1 hh.symm)).symm.trans ho')
      · intro h' e' he'
        simp only [get_put'] at he'
        split at he'
        · cases he'; exact hi.uses h e he
        · exact hi.uses h' e' he'
  | free h =>
    have hv' : (match Map.get r.types h with | some e => e.copy || decide (r.pre ≤ e.own) | none => false) = true := hv
    have hc' : (match Map.get r.types h with | some e => e.copy || r.types.all (fun f => f.1 == h || !f.2.uses.contains e.own) | none => false) = true := hc
    cases he : Map.get r.types h with
    | none => rw [he] at hv'; cases hv'
    | some e =>
      rw [he] at hc'
      have hknown : ∀ h', Map.get (Map.del s.known h) h' = (Map.get (Map.del r.types h) h').map RType.own := by
        intro h'
        rw [get_del, get_del]
        split
        · rfl
        · exact hi.known h'
      have hownd : ∀ h' p, Map.get (Map.del s.owned h) h' = some p → ∃ e, Map.get (Map.del r.types h) h' = some e ∧ e.own = p ∧ e.copy = false := by
        intro h' p hp
        rw [get_del] at hp
        split at hp
        · cases hp
        · next hh => rw [get_del, if_neg hh]; exact hi.owned h' p hp
      cases hw : Map.get s.owned h with
      | none =>
        refine ⟨{ s with known := Map.del s.known h, owned := Map.del s.owned h }, .unit, { r with types := Map.del r.types h }, ?_, rfl, ?_⟩
        · simp only [step, hw]
        · refine ⟨hi.count, hi.pre, hknown, ?_, hownd, ?_, ?_⟩
          · intro h' e' he'
            simp only [get_del] at he'
            split at he'
            · cases he'
            · exact hi.rep h' e' he'
          · intro h' e' o' he' hd ho'
            simp only [get_del] at he'
            split at he'
            · cases he'
            · exact hi.ids h' e' o' he' hd ho'
          · intro h' e' he'
            simp only [get_del] at he'
            split at he'
            · cases he'
            · exact hi.uses h' e' he'
      | some p =>
        obtain ⟨e1, g1, g2, g3⟩ := hi.owned h p hw
        rw [he] at g1
        cases g1
        replace hc' : (e.copy || r.types.all (fun f => f.1 == h || !f.2.uses.contains e.own)) = true := hc'
        rw [g3, Bool.false_or] at hc'
        have hnot : ∀ h' e', Map.get (Map.del r.types h) h' = some e' → p ∉ e'.uses := by
          intro h' e' he' hp
          rw [get_del] at he'
          split at he'
          · cases he'
          · next hh =>
            have := List.all_eq_true.1 hc' (h', e') (mem_of_get _ _ _ he')
            simp only [Bool.or_eq_true, beq_iff_eq, Bool.not_eq_true', List.contains_eq_mem, decide_eq_false_iff_not] at this
            rcases this with h3 | h3
            · exact hh h3.symm
            · rw [g2] at h3; exact h3 hp
        refine ⟨{ s with known := Map.del s.known h, owned := Map.del s.owned h, heap := kill s.heap p }, .unit, { r with types := Map.del r.types h }, ?_, rfl, ?_⟩
        · simp only [step, hw]
        · refine ⟨?_, hi.pre, hknown, ?_, hownd, ?_, ?_⟩
          · show r.count = (kill s.heap p).length
            unfold kill; rw [List.length_modify]; exact hi.count
          · intro h' e' he'
            have hn := hnot h' e' he'
            simp only [get_del] at he'
            split at he'
            · cases he'
            · exact Rep.mono (same_kill _ _ _ hn) (fun _ hx => hx) _ _ (hi.rep h' e' he')
          · intro h' e' o' he' hd ho'
            have hn := hnot h' e' he'
            simp only [get_del] at he'
            split at he'
            · cases he'
            · have hu := hi.uses h' e' he'
              exact hi.ids h' e' o' he' hd ((modify_ne _ p _ _ (fun hh : p = e'.own => hn (hh ▸ hu))).symm.trans ho')
          · intro h' e' he'
            simp only [get_del] at he'
            split at he'
            · cases he'
            · exact hi.uses h' e' he'
  | size h =>
    obtain ⟨e, he⟩ := Option.isSome_iff_exists.1 (show (Map.get r.types h).isSome = true from hv)
    obtain ⟨o, ho⟩ := (hi.rep h e he).head
    refine ⟨s, .num o.size, r, ?_, ?_, hi⟩
    · show (do let p ← s.ptr h; let o ← obj s.heap p; .ok (s, Res.num o.size)) = _
      rw [hi.ptr he]
      show (do let o ← obj s.heap e.own; .ok (s, Res.num o.size)) = _
      rw [obj_head ho]; rfl
    · simp only [Ref.accept, he, ho.2.2.2.1, if_true]
  | extent h =>
    obtain ⟨e, he⟩ := Option.isSome_iff_exists.1 (show (Map.get r.types h).isSome = true from hv)
    obtain ⟨o, ho⟩ := (hi.rep h e he).head
    refine ⟨s, .num o.extent, r, ?_, ?_, hi⟩
    · show (do let p ← s.ptr h; let o ← obj s.heap p; .ok (s, Res.num o.extent)) = _
      rw [hi.ptr he]
      show (do let o ← obj s.heap e.own; .ok (s, Res.num o.extent)) = _
      rw [obj_head ho]; rfl
    · simp only [Ref.accept, he, ho.2.2.2.2.1, if_true]
  | transfer h cnt =>
    obtain ⟨e, he⟩ := Option.isSome_iff_exists.1 (show (Map.get r.types h).isSome = true from hv)
    refine ⟨s, .copies (Types.xfer e.ty cnt), r, ?_, ?_, hi⟩
    · show (do let p ← s.ptr h; let l ← xfer s.heap p cnt; .ok (s, Res.copies l)) = _
      rw [hi.ptr he]
      show (do let l ← xfer s.heap e.own cnt; .ok (s, Res.copies l)) = _
      rw [xfer_rep (hi.rep h e he)]; rfl
    · simp only [Ref.accept, he, if_true]
  | userType h =>
    obtain ⟨e, he⟩ := Option.isSome_iff_exists.1 (show (Map.get r.types h).isSome = true from hv)
    obtain ⟨o, ho⟩ := (hi.rep h e he).head
    have hd : e.own ∉ r.dupped := by
      have : (match Map.get r.types h with | some e => !r.dupped.contains e.own | none => false) = true := hc
      rw [he] at this
      simpa using this
    have hid := hi.ids h e o he hd ho.1
    refine ⟨s, .num o.id, r, ?_, ?_, hi⟩
    · show (do let p ← s.ptr h; let o ← obj s.heap p; .ok (s, Res.num o.id)) = _
      rw [hi.ptr he]
      show (do let o ← obj s.heap e.own; .ok (s, Res.num o.id)) = _
      rw [obj_head ho]; rfl
    · simp only [Ref.accept, hid, if_true]
  | foreignDup b new =>
    refine ⟨{ s with heap := setId s.heap b new }, .unit, { r with dupped := b :: r.dupped }, rfl, rfl, ?_⟩
    refine ⟨?_, hi.pre, hi.known, ?_, hi.owned, ?_, hi.uses⟩
    · show r.count = (setId s.heap b new).length
      unfold setId; rw [List.length_modify]; exact hi.count
    · intro h' e' he'
      exact Rep.mono (same_setId _ _ _ _) (fun _ hx => hx) _ _ (hi.rep h' e' he')
    · intro h' e' o' he' hd ho'
      simp only [List.mem_cons, not_or] at hd
      exact hi.ids h' e' o' he' hd.2 ((modify_ne _ _ _ _ (fun hh => hd.1 hh.symm)).symm.trans ho')

/-! ### Theorems -/

theorem drive_inv : ∀ (ops : List Op) (s : St) (r : Ref), Inv s r →
    (∃ s' r', drive careful s r ops = .fine s' r' ∧ Inv s' r') ∨ drive careful s r ops = .misuse
  | [], s, r, hi => .inl ⟨s, r, rfl, hi⟩
  | op :: ops, s, r, hi => by
    rw [drive]
    cases hc : careful r op with
    | false => right; rfl
    | true =>
      obtain ⟨s', res, r', h1, h2, h3⟩ := step_inv hi op hc
      rw [if_pos rfl, h1]
      simp only [h2]
      exact drive_inv ops s' r' h3

theorem get_mapIdx {α β : Type} (f : Nat → β → Nat × α) (g : β → Nat) (hf : ∀ i b, (f i b).1 = g b) : ∀ (l : List β) (h : Nat) (v : α),
    Map.get (l.mapIdx f) h = some v → ∃ i b, l[i]? = some b ∧ h = g b ∧ v = (f i b).2 := by
  intro l h v hg
  have hm := mem_of_get _ _ _ hg
  rw [List.mem_mapIdx] at hm
  obtain ⟨i, hi, he⟩ := hm
  refine ⟨i, l[i], List.getElem?_eq_getElem hi, ?_, ?_⟩
  · rw [← hf i, he]
  · rw [he]

theorem get_mapIdx_map {α β γ : Type} (f : Nat → β → Nat × α) (f' : Nat → β → Nat × γ) (k : α → γ)
    (hf : ∀ i b, f' i b = ((f i b).1, k (f i b).2)) (h : Nat) : ∀ (l : List β),
    Map.get (l.mapIdx f') h = (Map.get (l.mapIdx f) h).map k := by
  intro l
  have : l.mapIdx f' = (l.mapIdx f).map (fun x => (x.1, k x.2)) := by
    apply List.ext_getElem?
    intro i
    rw [List.getElem?_mapIdx, List.getElem?_map, List.getElem?_mapIdx]
    cases l[i]? with
    | none => rfl
    | some b => simp only [Option.map_some, hf]
  rw [this]
  generalize l.mapIdx f = m
  induction m with
  | nil => rfl
  | cons x m ih =>
    rw [List.map_cons, Map.get, Map.get]
    split
    · rfl
    · exact ih

theorem inv_init (bs : List (Nat × Nat)) : Inv (init bs) (Ref.init bs) := by
  have hg : ∀ h e, Map.get (Ref.init bs).types h = some e → ∃ i b, bs[i]? = some b ∧ h = b.1 ∧ e = ⟨.prim b.2, i, [i], false⟩ :=
    fun h e he => get_mapIdx (fun i (b : Nat × Nat) => (b.1, (⟨.prim b.2, i, [i], false⟩ : RType))) Prod.fst (fun _ _ => rfl) bs h e he
  have ho : ∀ (i : Nat) (b : Nat × Nat), bs[i]? = some b → (init bs).heap[i]? = some ⟨b.1, true, b.2, b.2, true, .prim⟩ := by
    intro i b hb
    show (bs.map _)[i]? = _
    rw [List.getElem?_map, hb]
    rfl
  constructor
  · simp [init, Ref.init]
  · exact Nat.le_refl _
  · intro h
    exact get_mapIdx_map (fun i (b : Nat × Nat) => (b.1, (⟨.prim b.2, i, [i], false⟩ : RType))) _ RType.own (fun _ _ => rfl) h bs
  · intro h e he
    obtain ⟨i, b, h1, h2, rfl⟩ := hg h e he
    simp only [Rep]
    exact ⟨_, ⟨ho i b h1, rfl, by simp, rfl, rfl, rfl⟩, rfl⟩
  · intro h p hp
    cases hp
  · intro h e o he _ ho'
    obtain ⟨i, b, h1, h2, rfl⟩ := hg h e he
    rw [ho i b h1] at ho'
    cases ho'
    exact h2.symm
  · intro h e he
    obtain ⟨i, b, h1, h2, rfl⟩ := hg h e he
    simp

/-- C120: whatever predefined datatypes there are and whatever calls a process makes, if it frees a
handle made by a constructor only when no other live handle is a duplicate of it or was made from it,
and has user-defined reductions only over datatypes that nobody has duplicated, then every call returns
what it should: constructors and duplication a handle that names nothing else and means the type that
was asked for, queries its size and extent, transfers its bytes, and a user function gets the handle of
the datatype of the call. -/
theorem C120_discipline_partial (bs : List (Nat × Nat)) (ops : List Op) :
    (∃ s r, drive careful (init bs) (Ref.init bs) ops = .fine s r) ∨ drive careful (init bs) (Ref.init bs) ops = .misuse := by
  rcases drive_inv ops _ _ (inv_init bs) with ⟨s, r, h, _⟩ | h
  · exact .inl ⟨s, r, h⟩
  · exact .inr h

/-- Two predefined datatypes; a vector, a structure of it and a duplicate, used and freed in an order that
the discipline allows. -/
def demo : List Op :=
  [.vector 2 1 3 1, .struct [(1, 0, 0), (0, 5, 77), (2, 8, 2)], .transfer 3 2, .dup 2, .extent 4, .free 4, .free 3, .transfer 2 1,
   .free 2, .contiguous 3 0, .userType 1, .userType 4]

/-- Whether a run went well. -/
def Verdict.isFine : Verdict → Bool
  | .fine _ _ => true
  | _ => false

example : (drive careful (init [(0, 4), (1, 8)]) (Ref.init [(0, 4), (1, 8)]) demo).isFine = true := by decide +kernel

/-- C120: every constructor and the duplication give a handle that was not in use. -/
theorem C120_fresh (s s' : St) (op : Op) (h' : Nat) (hs : step s op = .ok (s', .handle h')) :
    Map.get s.known h' = none ∧ (Map.get s'.known h').isSome = true := by
  have key : ∀ o : Obj, s.add o = (s', .handle h') → Map.get s.known h' = none ∧ (Map.get s'.known h').isSome = true := by
    intro o ho
    unfold St.add at ho
    simp only [Prod.mk.injEq, Res.handle.injEq] at ho
    obtain ⟨rfl, rfl⟩ := ho
    refine ⟨nextId_fresh _ _, ?_⟩
    simp only [get_put', if_true, Option.isSome_some]
  have bind1 : ∀ (h : Nat) (f : Nat → Obj → Except Fail (St × Res)),
      (do let p ← s.ptr h; let o ← obj s.heap p; f p o) = Except.ok (s', .handle h') → ∃ p o, f p o = .ok (s', .handle h') := by
    intro h f hf
    cases hp : s.ptr h with
    | error e => rw [hp] at hf; cases hf
    | ok p =>
      rw [hp] at hf
      cases ho : obj s.heap p with
      | error e =>
        replace hf : (do let o ← obj s.heap p; f p o) = Except.ok (s', .handle h') := hf
        rw [ho] at hf; cases hf
      | ok o =>
        replace hf : (do let o ← obj s.heap p; f p o) = Except.ok (s', .handle h') := hf
        rw [ho] at hf
        exact ⟨p, o, hf⟩
  cases op with
  | contiguous n h => obtain ⟨p, o, e⟩ := bind1 h _ hs; exact key _ (Except.ok.inj e)
  | vector n k st h => obtain ⟨p, o, e⟩ := bind1 h _ hs; exact key _ (Except.ok.inj e)
  | hvector n k st h => obtain ⟨p, o, e⟩ := bind1 h _ hs; exact key _ (Except.ok.inj e)
  | hindexed l h => obtain ⟨p, o, e⟩ := bind1 h _ hs; exact key _ (Except.ok.inj e)
  | struct l =>
    cases hb : sblocks s 0 l with
    | error e => simp only [step, hb] at hs; cases hs
    | ok b => simp only [step, hb] at hs; exact key _ (Except.ok.inj hs)
  | dup h =>
    obtain ⟨p, o, e⟩ := bind1 h _ hs
    have e := Except.ok.inj e
    simp only [Prod.mk.injEq, Res.handle.injEq] at e
    obtain ⟨rfl, rfl⟩ := e
    refine ⟨nextId_fresh _ _, ?_⟩
    simp only [get_put', if_true, Option.isSome_some]
  | free h =>
    simp only [step] at hs
    split at hs <;> cases hs
  | size h => obtain ⟨p, o, e⟩ := bind1 h _ hs; cases e
  | extent h => obtain ⟨p, o, e⟩ := bind1 h _ hs; cases e
  | transfer h cnt =>
    cases hp : s.ptr h with
    | error e => simp only [step, hp] at hs; cases hs
    | ok p =>
      cases hx : xfer s.heap p cnt with
      | error e => simp only [step, hp, bind, Except.bind, hx] at hs; cases hs
      | ok l => simp only [step, hp, bind, Except.bind, hx] at hs; cases hs
  | userType h => obtain ⟨p, o, e⟩ := bind1 h _ hs; cases e
  | foreignDup b n => simp only [step] at hs; cases hs

example : (step (init [(0, 4), (1, 8)]) (.vector 2 1 3 1)).toOption.map Prod.snd = some (.handle 2) := by decide

/-! ### Refutations -/

/-- C120: MPI lets a program free a datatype that others were made from.  Here a vector with gaps whose
base was freed cannot be used: the transfer reads a deleted object. -/
theorem C120_base_refuted (s : St) (h p : Nat) (o : Obj) (count blocklen : Nat) (stride : Int) (cnt : Nat)
    (hk : Map.get s.known h = some p) (ho : obj s.heap p = .ok o) (hw : Map.get s.owned h = some p)
    (hgap : stride ≠ blocklen * o.extent) (hcnt : 0 < cnt) :
    ∃ s1 h' s2, step s (.hvector count blocklen stride h) = .ok (s1, .handle h') ∧ step s1 (.free h) = .ok (s2, .unit) ∧
      step s2 (.transfer h' cnt) = .error .fault := by
  have hlt : p < s.heap.length := by
    rcases Nat.lt_or_ge p s.heap.length with h' | h'
    · exact h'
    · unfold obj at ho; rw [List.getElem?_eq_none h'] at ho; cases ho
  have hfresh := nextId_fresh s.known s.next
  have hne : nextId s.known (s.known.length + 1) s.next ≠ h := by
    intro hh; rw [hh, hk] at hfresh; cases hfresh
  generalize hid : nextId s.known (s.known.length + 1) s.next = id at *
  let s1 : St := { heap := s.heap ++ [{ mkVec p o count blocklen stride with id := id }], known := Map.put s.known id s.heap.length, owned := Map.put s.owned id s.heap.length, next := id }
  let s2 : St := { s1 with known := Map.del s1.known h, owned := Map.del s1.owned h, heap := kill s1.heap p }
  have hp : s.ptr h = .ok p := by unfold St.ptr; rw [hk]
  refine ⟨s1, id, s2, ?_, ?_, ?_⟩
  · show (do let p ← s.ptr h; let o ← obj s.heap p; .ok (s.add (mkVec p o count blocklen stride))) = _
    rw [hp]
    show (do let o ← obj s.heap p; .ok (s.add (mkVec p o count blocklen stride))) = _
    rw [ho]
    show Except.ok (s.add _) = _
    unfold St.add
    rw [hid]
  · have : Map.get s1.owned h = some p := by
      show Map.get (Map.put s.owned id s.heap.length) h = _
      rw [get_put', if_neg (fun e => hne e), hw]
    simp only [step, this]
    rfl
  · have hk2 : Map.get s2.known id = some s.heap.length := by
      show Map.get (Map.del (Map.put s.known id s.heap.length) h) id = _
      rw [get_del, if_neg (fun e => hne e.symm), get_put', if_pos rfl]
    have hp2 : s2.ptr id = .ok s.heap.length := by unfold St.ptr; rw [hk2]
    have hv : obj s2.heap s.heap.length = .ok { mkVec p o count blocklen stride with id := id } := by
      have : s2.heap[s.heap.length]? = some { mkVec p o count blocklen stride with id := id } := by
        show ((s.heap ++ [_]).modify p _)[s.heap.length]? = _
        rw [modify_ne _ _ _ _ (by omega)]
        exact get_last
      unfold obj
      rw [this]
      rfl
    have hb : obj s2.heap p = .error .fault := by
      have : ∃ o', s2.heap[p]? = some o' ∧ o'.live = false := by
        show ∃ o', (kill (s.heap ++ [{ mkVec p o count blocklen stride with id := id }]) p)[p]? = some o' ∧ o'.live = false
        unfold kill
        rw [List.getElem?_modify, List.getElem?_append_left hlt, List.getElem?_eq_getElem hlt]
        exact ⟨_, by simp; rfl, rfl⟩
      obtain ⟨o', e1, e2⟩ := this
      unfold obj
      rw [e1]
      simp only [e2]
      rfl
    have hx : xfer s2.heap s.heap.length cnt = .error .fault := by
      unfold xfer
      rw [hv]
      show (if (decide (stride = blocklen * o.extent) && o.contig) = true then _ else if cnt = 0 then _ else _) = _
      rw [decide_eq_false hgap, Bool.false_and, if_neg (by simp), if_neg (by omega), pack, hv]
      show Except.map _ (do let ob ← obj s2.heap p; if count = 0 then _ else _) = _
      rw [hb]
      rfl
    show (do let p ← s2.ptr id; let l ← xfer s2.heap p cnt; .ok (s2, Res.copies l)) = _
    rw [hp2]
    show (do let l ← xfer s2.heap s.heap.length cnt; .ok (s2, Res.copies l)) = _
    rw [hx]
    rfl

/-- The calls before the failure are those of a correct program. -/
def isFailed : Verdict → Bool
  | .failed .fault => true
  | _ => false

/-- Whether a call returned something wrong. -/
def isWrong : Verdict → Bool
  | .wrong => true
  | _ => false

/-- C120: so a correct program fails: a row of two, a column of rows with gaps, the row is freed, the
column is sent. -/
theorem C120_base_run_refuted :
    isFailed (drive valid (init [(0, 4)]) (Ref.init [(0, 4)]) [.contiguous 2 0, .hvector 2 1 32 1, .free 1, .transfer 2 1]) = true := by
  decide +kernel

/-- C120: a duplicate does not outlive the datatype it was made of: after the original is freed even its
size cannot be asked for. -/
theorem C120_dup_refuted (s : St) (h p : Nat) (o : Obj)
    (hk : Map.get s.known h = some p) (ho : obj s.heap p = .ok o) (hw : Map.get s.owned h = some p) :
    ∃ s1 h' s2, step s (.dup h) = .ok (s1, .handle h') ∧ step s1 (.free h) = .ok (s2, .unit) ∧ step s2 (.size h') = .error .fault := by
  have hlt : p < s.heap.length := by
    rcases Nat.lt_or_ge p s.heap.length with h' | h'
    · exact h'
    · unfold obj at ho; rw [List.getElem?_eq_none h'] at ho; cases ho
  have hfresh := nextId_fresh s.known s.next
  have hne : nextId s.known (s.known.length + 1) s.next ≠ h := by
    intro hh; rw [hh, hk] at hfresh; cases hfresh
  generalize hid : nextId s.known (s.known.length + 1) s.next = id at *
  let s1 : St := { s with heap := setId s.heap p id, known := Map.put s.known id p, next := id }
  let s2 : St := { s1 with known := Map.del s1.known h, owned := Map.del s1.owned h, heap := kill s1.heap p }
  have hp : s.ptr h = .ok p := by unfold St.ptr; rw [hk]
  refine ⟨s1, id, s2, ?_, ?_, ?_⟩
  · show (do let p ← s.ptr h; let _ ← obj s.heap p; _) = _
    rw [hp]
    show (do let _ ← obj s.heap p; _) = _
    rw [ho, hid]
    rfl
  · simp only [step, show Map.get s1.owned h = some p from hw]
    rfl
  · have hk2 : Map.get s2.known id = some p := by
      show Map.get (Map.del (Map.put s.known id p) h) id = _
      rw [get_del, if_neg (fun e => hne e.symm), get_put', if_pos rfl]
    have hb : obj s2.heap p = .error .fault := by
      have : ∃ o', s2.heap[p]? = some o' ∧ o'.live = false := by
        show ∃ o', ((s.heap.modify p _).modify p _)[p]? = some o' ∧ o'.live = false
        rw [List.getElem?_modify, List.getElem?_modify, List.getElem?_eq_getElem hlt]
        exact ⟨_, by simp; rfl, rfl⟩
      obtain ⟨o', e1, e2⟩ := this
      unfold obj
      rw [e1]
      simp only [e2]
      rfl
    show (do let p ← s2.ptr id; let o ← obj s2.heap p; .ok (s2, Res.num o.size)) = _
    rw [show s2.ptr id = .ok p by unfold St.ptr; rw [hk2]]
    show (do let o ← obj s2.heap p; .ok (s2, Res.num o.size)) = _
    rw [hb]
    rfl

/-- C120: so a correct program fails: a type is duplicated, the original is freed, the copy is used. -/
theorem C120_dup_run_refuted :
    isFailed (drive valid (init [(0, 4)]) (Ref.init [(0, 4)]) [.contiguous 2 0, .dup 1, .free 1, .transfer 2 1]) = true := by
  decide +kernel

/-- C120: duplication renames the original: a user function called for the datatype `h` gets the handle
of the duplicate. -/
theorem C120_rename_refuted (s : St) (h p : Nat) (o : Obj) (hk : Map.get s.known h = some p) (ho : obj s.heap p = .ok o) :
    ∃ s1 h', h' ≠ h ∧ step s (.dup h) = .ok (s1, .handle h') ∧ step s1 (.userType h) = .ok (s1, .num h') := by
  have hlt : p < s.heap.length := by
    rcases Nat.lt_or_ge p s.heap.length with h' | h'
    · exact h'
    · unfold obj at ho; rw [List.getElem?_eq_none h'] at ho; cases ho
  have hlive : s.heap[p].live = true := by
    unfold obj at ho
    rw [List.getElem?_eq_getElem hlt] at ho
    cases hl : s.heap[p].live
    · simp only [hl] at ho; cases ho
    · rfl
  have hfresh := nextId_fresh s.known s.next
  have hne : nextId s.known (s.known.length + 1) s.next ≠ h := by
    intro hh; rw [hh, hk] at hfresh; cases hfresh
  generalize hid : nextId s.known (s.known.length + 1) s.next = id at *
  refine ⟨{ s with heap := setId s.heap p id, known := Map.put s.known id p, next := id }, id, hne, ?_, ?_⟩
  · show (do let p ← s.ptr h; let _ ← obj s.heap p; _) = _
    rw [show s.ptr h = .ok p by unfold St.ptr; rw [hk]]
    show (do let _ ← obj s.heap p; _) = _
    rw [ho, hid]
    rfl
  · have hk2 : Map.get (Map.put s.known id p) h = some p := by rw [get_put', if_neg (fun e => hne e), hk]
    have hb : obj (setId s.heap p id) p = .ok { s.heap[p] with id := id } := by
      have : (setId s.heap p id)[p]? = some { s.heap[p] with id := id } := by
        unfold setId
        rw [List.getElem?_modify, List.getElem?_eq_getElem hlt]
        simp
      unfold obj
      rw [this]
      simp only [hlive, if_true]
    simp only [step, St.ptr, hk2, bind, Except.bind, hb]

/-- C120: and once the duplicate is freed its number goes to the next type: a user function called for the
predefined datatype gets the handle of a vector. -/
theorem C120_rename_run_refuted :
    (drive valid (init [(0, 4)]) (Ref.init [(0, 4)]) [.dup 0, .free 1, .vector 2 1 3 0]).isFine = true ∧
    isWrong (drive valid (init [(0, 4)]) (Ref.init [(0, 4)]) [.dup 0, .free 1, .vector 2 1 3 0, .userType 0]) = true := by
  decide +kernel

/-- C120: the predefined datatypes are shared by the processes of a simulation: when another process
duplicates one, a user function of this process gets the other process's handle. -/
theorem C120_processes_refuted (s : St) (h p new : Nat) (o : Obj) (hk : Map.get s.known h = some p) (ho : obj s.heap p = .ok o) :
    ∃ s1, step s (.foreignDup p new) = .ok (s1, .unit) ∧ step s1 (.userType h) = .ok (s1, .num new) := by
  have hlt : p < s.heap.length := by
    rcases Nat.lt_or_ge p s.heap.length with h' | h'
    · exact h'
    · unfold obj at ho; rw [List.getElem?_eq_none h'] at ho; cases ho
  have hlive : s.heap[p].live = true := by
    unfold obj at ho
    rw [List.getElem?_eq_getElem hlt] at ho
    cases hl : s.heap[p].live
    · simp only [hl] at ho; cases ho
    · rfl
  refine ⟨{ s with heap := setId s.heap p new }, rfl, ?_⟩
  have hb : obj (setId s.heap p new) p = .ok { s.heap[p] with id := new } := by
    have : (setId s.heap p new)[p]? = some { s.heap[p] with id := new } := by
      unfold setId
      rw [List.getElem?_modify, List.getElem?_eq_getElem hlt]
      simp
    unfold obj
    rw [this]
    simp only [hlive, if_true]
  simp only [step, St.ptr, hk, bind, Except.bind, hb]

example : Map.get (init [(0, 4), (1, 8)]).known 1 = some 1 ∧ (obj (init [(0, 4), (1, 8)]).heap 1).toOption.isSome = true := by decide

/-- A state with a vector that the process owns. -/
example : ((step (init [(0, 4)]) (.contiguous 2 0)).toOption.map (fun x => (Map.get x.1.known 1, Map.get x.1.owned 1, (obj x.1.heap 1).toOption.isSome))) =
    some (some 1, some 1, true) := by decide

end SST.Mpi.Dt
