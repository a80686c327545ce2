import Verif.Clang.Memory
set_option autoImplicit false

/-!
# Theorems about the bytes that a block is charged for
-/

namespace Verif.Clang.Memory

/-! ### Specification -/

/-- The reads of elements that one evaluation of an expression makes, with their bytes; an expression on the left of an assignment is written, not read,
and a row of an array or an operand of `&` is an address, not a read. -/
def readsOf : E → Bool → List (E × Nat)
  | .op _ l r, _ => readsOf l false ++ readsOf r false
  | .idx w b i, lhs => readsOf i false ++ readsOf b false ++ if lhs then [] else [(.idx w b i, w)]
  | .row _ b i, _ => readsOf i false ++ readsOf b false
  | .paren e, lhs => readsOf e lhs
  | .cast e, lhs => readsOf e lhs
  | .unary e, _ => readsOf e false
  | .addr e, _ => readsOf e true
  | _, _ => []

/-- The bytes of reads. -/
def bytes (l : List (E × Nat)) : Nat := (l.map Prod.snd).sum

/-- The bytes that a program reads from arrays. -/
def executed : P → Nat
  | .expr e => bytes (readsOf e false)
  | .assign l r => bytes (readsOf l true) + bytes (readsOf r false)
  | .update l r => bytes (readsOf l false) + bytes (readsOf r false)
  | .seq a b => executed a + executed b
  | .loop _ n body => n * executed body

/-- The places of the program that read, for programs without updates. -/
def places : P → List E
  | .expr e => (readsOf e false).map Prod.fst
  | .assign l r => (readsOf l true).map Prod.fst ++ (readsOf r false).map Prod.fst
  | .update l r => (readsOf l true).map Prod.fst ++ (readsOf r false).map Prod.fst
  | .seq a b => places a ++ places b
  | .loop _ _ body => places body

/-- A read as it is spelled: the bytes of an element, the array, and the index `v o₁ v₁ o₂ v₂ …`. -/
structure Spelled where
  w : Nat
  array : Nat
  v : Nat
  more : List (Nat × Nat)

/-- The expression of a read that is spelled so. -/
def Spelled.expr (x : Spelled) : E := .idx x.w (.var x.array) (x.more.foldl (fun e y => .op y.1 e (.var y.2)) (.var x.v))

/-- Array and index. -/
def Spelled.name (x : Spelled) : Nat × Nat × List (Nat × Nat) := (x.array, x.v, x.more)

/-- No rows of arrays, no addresses of elements, and no parentheses around what is assigned to. -/
def PlainE : E → Bool → Prop
  | .op _ l r, _ => PlainE l false ∧ PlainE r false
  | .idx _ b i, _ => PlainE b false ∧ PlainE i false
  | .row _ _ _, _ => False
  | .paren e, lhs => lhs = false ∧ PlainE e false
  | .cast e, lhs => PlainE e lhs
  | .unary e, _ => PlainE e false
  | .addr _, _ => False
  | _, _ => True

@[inherit_doc PlainE] def Plain : P → Prop
  | .expr e => PlainE e false
  | .assign l r => PlainE l true ∧ PlainE r false
  | .update l r => PlainE l true ∧ PlainE r false
  | .seq a b => Plain a ∧ Plain b
  | .loop _ _ body => Plain body

/-- No assignments that read what they assign to. -/
def NoUpdate : P → Prop
  | .update _ _ => False
  | .seq a b => NoUpdate a ∧ NoUpdate b
  | .loop _ _ body => NoUpdate body
  | _ => True

/-! ### Proofs -/

/-- The reads with their labels. -/
def marked (e : E) (lhs : Bool) : List (List Tok × Nat) := (readsOf e lhs).map fun x => (label x.1, x.2)

/-- The labels of the places. -/
def labels (p : P) : List (List Tok) := (places p).map label

theorem marked_snd (e : E) (lhs : Bool) : ((marked e lhs).map Prod.snd).sum = bytes (readsOf e lhs) := by
  rw [marked, List.map_map]; rfl

theorem marked_fst (e : E) (lhs : Bool) : (marked e lhs).map Prod.fst = ((readsOf e lhs).map Prod.fst).map label := by
  rw [marked, List.map_map, List.map_map]; rfl

/-- What a visit does: bytes, the labels read before and after, and the generation. -/
structure Does (s : St) (rs : List (List Tok × Nat)) (r : St × Nat) : Prop where
  le : r.2 ≤ (rs.map Prod.snd).sum
  eq : (rs.map Prod.fst).Nodup → (∀ l, l ∈ rs.map Prod.fst → s.reads l = 0) → r.2 = (rs.map Prod.snd).sum
  reads : ∀ l, l ∉ rs.map Prod.fst → r.1.reads l = s.reads l
  gen : s.gen ≤ r.1.gen

theorem Does.nil (s : St) (r : St × Nat) (h2 : r.2 = 0) (hr : r.1.reads = s.reads) (hg : s.gen ≤ r.1.gen) : Does s [] r :=
  ⟨by rw [h2]; exact Nat.zero_le _, fun _ _ => h2, fun l _ => by rw [hr], hg⟩

theorem Does.append {s : St} {rs rs' : List (List Tok × Nat)} {r r' : St × Nat} (h : Does s rs r) (h' : Does r.1 rs' r') : Does s (rs ++ rs') (r'.1, r.2 + r'.2) := by
  refine ⟨?_, fun hn hz => ?_, fun l hl => ?_, Nat.le_trans h.gen h'.gen⟩
  · rw [List.map_append, List.sum_append]
    have := h.le; have := h'.le
    simp only; omega
  · rw [List.map_append] at hn hz
    rw [List.nodup_append] at hn
    rw [List.map_append, List.sum_append]
    simp only
    rw [h.eq hn.1 (fun l hl => hz l (List.mem_append_left _ hl)), h'.eq hn.2.1 (fun l hl => ?_)]
    rw [h.reads l (fun hc => hn.2.2 l hc l hl rfl)]
    exact hz l (List.mem_append_right _ hl)
  · rw [List.map_append, List.mem_append, not_or] at hl
    simp only
    rw [h'.reads l hl.2, h.reads l hl.1]

theorem Does.bump {s : St} {rs : List (List Tok × Nat)} {r : St × Nat} (h : Does { s with gen := s.gen + 1 } rs r) : Does s rs r :=
  ⟨h.le, h.eq, h.reads, Nat.le_trans (Nat.le_succ _) h.gen⟩

theorem access_does (w : Nat) (b i : E) (lhs : Bool) (s : St) : Does s (if lhs then [] else [(label (.idx w b i), w)]) (access w b i lhs s) := by
  unfold access
  cases lhs with
  | true => exact Does.nil _ _ rfl rfl (Nat.le_refl _)
  | false =>
    refine ⟨?_, fun _ hz => ?_, fun l hl => ?_, Nat.le_refl _⟩
    · simp only [Bool.false_eq_true, if_false, List.map_cons, List.map_nil, List.sum_cons, List.sum_nil]
      split <;> omega
    · have := hz (label (.idx w b i)) (List.mem_cons_self ..)
      simp only [Bool.false_eq_true, if_false, List.map_cons, List.map_nil, List.sum_cons, List.sum_nil]
      rw [if_pos (Or.inr this)]
      rfl
    · simp only [Bool.false_eq_true, if_false, List.map_cons, List.map_nil, List.mem_singleton] at hl
      simp only [Bool.false_eq_true, if_false, set, if_neg hl]

theorem visit_does (e : E) : ∀ (lhs : Bool) (s : St), PlainE e lhs → Does s (marked e lhs) (visit e lhs s) := by
  induction e with
  | var v =>
    intro lhs s _
    simp only [marked, readsOf, visit, List.map_nil]
    refine Does.nil _ _ rfl ?_ ?_
    · cases lhs <;> rfl
    · cases lhs <;> exact Nat.le_succ _
  | lit n => intro lhs s _; exact Does.nil _ _ rfl rfl (Nat.le_succ _)
  | op o l r ih1 ih2 =>
    intro lhs s h
    have := ((ih1 false { s with gen := s.gen + 1 } h.1).append (ih2 false _ h.2)).bump
    simp only [marked, ← List.map_append] at this
    exact this
  | idx w b i ih1 ih2 =>
    intro lhs s h
    have := (((ih2 false { s with gen := s.gen + 1 } h.2).append (ih1 false _ h.1)).append (access_does w b i lhs _)).bump
    have e : (if lhs = true then [] else [(label (.idx w b i), w)]) = (if lhs = true then [] else [(E.idx w b i, w)]).map (fun x : E × Nat => (label x.1, x.2)) := by cases lhs <;> rfl
    rw [e] at this
    simp only [marked, ← List.map_append] at this
    exact this
  | row w b i _ _ => intro lhs s h; exact h.elim
  | paren e ih =>
    intro lhs s h
    obtain ⟨rfl, h⟩ := h
    exact (ih false _ h).bump
  | cast e ih => intro lhs s h; exact (ih lhs _ h).bump
  | unary e ih => intro lhs s h; exact (ih false _ h).bump
  | addr e _ => intro lhs s h; exact h.elim
  | member o f => intro lhs s _; exact Does.nil _ _ rfl rfl (Nat.le_succ _)

theorem reads_true_le (e : E) : bytes (readsOf e true) ≤ bytes (readsOf e false) := by
  induction e with
  | idx w b i _ _ => simp [readsOf, bytes, List.sum_append]
  | paren e ih => exact ih
  | cast e ih => exact ih
  | _ => exact Nat.le_refl _

theorem visitP_does (p : P) : ∀ s : St, Plain p → (visitP p s).2 ≤ executed p ∧
    (NoUpdate p → (labels p).Nodup → (∀ l, l ∈ labels p → s.reads l = 0) → (visitP p s).2 = executed p) ∧ ∀ l, l ∉ labels p → (visitP p s).1.reads l = s.reads l := by
  induction p with
  | expr e =>
    intro s h
    have := visit_does e false s h
    have e1 : executed (.expr e) = ((marked e false).map Prod.snd).sum := (marked_snd e false).symm
    have e2 : labels (.expr e) = (marked e false).map Prod.fst := (marked_fst e false).symm
    rw [e1, e2]
    exact ⟨this.le, fun _ => this.eq, this.reads⟩
  | assign l r =>
    intro s h
    have := ((visit_does l true { s with gen := s.gen + 1 } h.1).append (visit_does r false _ h.2)).bump
    have e1 : executed (.assign l r) = ((marked l true ++ marked r false).map Prod.snd).sum := by rw [List.map_append, List.sum_append, marked_snd, marked_snd]; rfl
    have e2 : labels (.assign l r) = (marked l true ++ marked r false).map Prod.fst := by rw [List.map_append, marked_fst, marked_fst, ← List.map_append]; rfl
    rw [e1, e2]
    exact ⟨this.le, fun _ => this.eq, this.reads⟩
  | update l r =>
    intro s h
    have := ((visit_does l true { s with gen := s.gen + 1 } h.1).append (visit_does r false _ h.2)).bump
    have e2 : labels (.update l r) = (marked l true ++ marked r false).map Prod.fst := by rw [List.map_append, marked_fst, marked_fst, ← List.map_append]; rfl
    have hle := this.le
    rw [List.map_append, List.sum_append, marked_snd, marked_snd] at hle
    rw [e2]
    exact ⟨Nat.le_trans hle (Nat.add_le_add_right (reads_true_le l) _), fun hu => hu.elim, this.reads⟩
  | seq a b ih1 ih2 =>
    intro s h
    have h1 := ih1 { s with gen := s.gen + 1 } h.1
    have h2 := ih2 (visitP a { s with gen := s.gen + 1 }).1 h.2
    refine ⟨Nat.add_le_add h1.1 h2.1, fun hu hn hz => ?_, fun l hl => ?_⟩
    · simp only [labels, places, List.map_append] at hn hz
      rw [List.nodup_append] at hn
      simp only [visitP, executed]
      rw [h1.2.1 hu.1 hn.1 (fun l hl => hz l (List.mem_append_left _ hl)), h2.2.1 hu.2 hn.2.1 (fun l hl => ?_)]
      rw [h1.2.2 l (fun hc => hn.2.2 l hc l hl rfl)]
      exact hz l (List.mem_append_right _ hl)
    · simp only [labels, places, List.map_append, List.mem_append, not_or] at hl
      simp only [visitP]
      rw [h2.2.2 l hl.2, h1.2.2 l hl.1]
  | loop v n body ih =>
    intro s h
    have h1 := ih { s with gen := s.gen + 1 } h
    refine ⟨Nat.mul_le_mul_left _ h1.1, fun hu hn hz => ?_, fun l hl => h1.2.2 l hl⟩
    simp only [visitP, executed]
    rw [h1.2.1 hu hn hz]

/-- What the index of a spelled read adds to its label. -/
theorem label_more (l : List (Nat × Nat)) : ∀ e : E, label (l.foldl (fun e y => .op y.1 e (.var y.2)) e) = label e ++ l.flatMap fun y => [.op y.1, .var y.2] := by
  induction l with
  | nil => intro e; simp
  | cons y l ih => intro e; rw [List.foldl_cons, ih]; simp [label]

theorem more_inj : ∀ l l' : List (Nat × Nat), (l.flatMap fun y => [Tok.op y.1, .var y.2]) ++ [.right] = (l'.flatMap fun y => [Tok.op y.1, .var y.2]) ++ [.right] → l = l' := by
  intro l
  induction l with
  | nil =>
    intro l' h
    cases l' with
    | nil => rfl
    | cons y l' => simp at h
  | cons x l ih =>
    intro l' h
    cases l' with
    | nil => simp at h
    | cons y l' =>
      simp only [List.flatMap_cons, List.cons_append, List.nil_append, List.cons.injEq, Tok.op.injEq, Tok.var.injEq] at h
      rw [ih l' h.2.2, Prod.ext h.1 h.2.1]

theorem spelled_inj (x y : Spelled) (h : label x.expr = label y.expr) : x.name = y.name := by
  simp only [Spelled.expr, label, label_more, List.cons_append, List.nil_append, List.cons.injEq, Tok.var.injEq, true_and] at h
  simp only [Spelled.name]
  rw [h.1, h.2.1, more_inj _ _ h.2.2]

theorem spelled_nodup (xs : List Spelled) (h : (xs.map Spelled.name).Nodup) : (xs.map fun x => label x.expr).Nodup := by
  induction xs with
  | nil => exact List.nodup_nil
  | cons x xs ih =>
    rw [List.map_cons, List.nodup_cons] at h ⊢
    refine ⟨fun hm => ?_, ih h.2⟩
    obtain ⟨y, hy, e⟩ := List.mem_map.mp hm
    exact h.1 (List.mem_map.mpr ⟨y, hy, spelled_inj y x e⟩)

/-! ### Theorems -/

/-- A block without rows of arrays and addresses of elements is never charged for more bytes than it reads, however deep its loops. -/
theorem C143_at_most_partial (p : P) (h : Plain p) : charge p ≤ executed p := (visitP_does p .new h).1

/-- If no two places of such a block read the same array with the same index, and none updates an element in place, it is charged exactly what it reads.
This is for indices of variables and operators; not for constants, members and arrays in an index. -/
theorem C143_exact_partial (p : P) (h : Plain p) (hu : NoUpdate p) (xs : List Spelled) (hp : places p = xs.map Spelled.expr) (hn : (xs.map Spelled.name).Nodup) : charge p = executed p := by
  refine (visitP_does p .new h).2.1 hu ?_ (fun _ _ => rfl)
  rw [labels, hp, List.map_map]
  exact spelled_nodup xs hn

/-- `for i < 100 { for j < 50 { y[i] += a[i*n + j] * x[j] } }`, with the read of `y[i]` written out. -/
example : let p : P := .loop 1 100 (.loop 2 50 (.assign (.idx 8 (.var 3) (.var 1)) (.op 0 (.idx 8 (.var 3) (.var 1)) (.op 1 (.idx 8 (.var 4) (.op 0 (.op 1 (.var 1) (.var 5)) (.var 2))) (.idx 8 (.var 6) (.var 2))))))
    Plain p ∧ NoUpdate p ∧ (let xs : List Spelled := [⟨8, 3, 1, []⟩, ⟨8, 4, 1, [(1, 5), (0, 2)]⟩, ⟨8, 6, 2, []⟩]; places p = xs.map Spelled.expr ∧ (xs.map Spelled.name).Nodup) ∧ charge p = 120000 := by
  refine ⟨⟨⟨trivial, trivial⟩, ⟨trivial, trivial⟩, ⟨trivial, ⟨trivial, trivial⟩, trivial⟩, trivial, trivial⟩, trivial, ⟨by decide, by decide⟩, by decide⟩

/-- An index that is assigned between two reads makes the second one count. -/
theorem C143_assigned (w a v : Nat) (n : Int) : charge (.seq (.expr (.idx w (.var a) (.var v))) (.seq (.assign (.var v) (.lit n)) (.expr (.idx w (.var a) (.var v))))) = w + w := by
  simp [charge, visitP, visit, access, St.new, label, dep, set]
  intro h
  have := Nat.le_trans (Nat.le_max_right _ _) h
  omega

/-- Two reads in a round that name one element in the same way count as one, whatever the array is and if the index is a variable. -/
theorem C143_repeated (w a v n : Nat) : charge (.loop v n (.seq (.expr (.idx w (.var a) (.var v))) (.expr (.idx w (.var a) (.var v))))) = n * w := by
  simp [charge, visitP, visit, access, St.new, label, dep, set]

/-- Reads of one array at any number of different constants count as one. -/
theorem C143_constants_refuted (w a : Nat) (n : Int) (ns : List Int) :
    let p := ns.foldl (fun p m => .seq p (.expr (.idx w (.var a) (.lit m)))) (.expr (.idx w (.var a) (.lit n)))
    charge p = w ∧ executed p = (ns.length + 1) * w := by
  have key : ∀ (ns : List Int) (p : P), (∀ s : St, s.gen ≠ 0 → s.vars = (fun _ => 0) → (visitP p s).2 = (if s.reads [.var a, .left, .right] = 0 then w else 0) ∧ (visitP p s).1.gen ≠ 0 ∧ (visitP p s).1.vars = (fun _ => 0) ∧ (visitP p s).1.reads [.var a, .left, .right] ≠ 0) →
      (visitP (ns.foldl (fun p m => .seq p (.expr (.idx w (.var a) (.lit m)))) p) .new).2 = w := by
    intro ns
    induction ns with
    | nil => intro p hp; rw [List.foldl_nil, (hp .new (by decide) rfl).1]; rfl
    | cons m ns ih =>
      intro p hp
      rw [List.foldl_cons]
      refine ih _ (fun s hs hv => ?_)
      have h1 := hp { s with gen := s.gen + 1 } (Nat.succ_ne_zero _) hv
      simp only [visitP]
      refine ⟨?_, ?_, ?_, ?_⟩
      · rw [h1.1]
        simp [visit, access, label, dep, h1.2.2.1, h1.2.2.2]
      · simp [visit, access]
      · simp [visit, access, h1.2.2.1]
      · simp [visit, access, label, set]
  intro p
  refine ⟨key ns _ (fun s hs hv => ?_), ?_⟩
  · simp only [visitP]
    refine ⟨?_, ?_, ?_, ?_⟩
    · simp [visit, access, label, dep, hv]
    · simp [visit, access]
    · simp [visit, access, hv]
    · simp [visit, access, label, set]
  · have e : ∀ (ns : List Int) (q : P), executed (ns.foldl (fun p m => .seq p (.expr (.idx w (.var a) (.lit m)))) q) = executed q + ns.length * w := by
      intro ns
      induction ns with
      | nil => intro q; simp
      | cons m ns ih =>
        intro q
        rw [List.foldl_cons, ih]
        simp [executed, readsOf, bytes, List.length_cons, Nat.add_mul]
        omega
    rw [e]
    simp [executed, readsOf, bytes, Nat.add_mul]
    omega

/-- Reads of two fields at the same index count as one, even of different objects and with elements of different sizes. -/
theorem C143_fields_refuted (w w' o f o' f' v : Nat) :
    let p : P := .seq (.expr (.idx w (.member o f) (.var v))) (.expr (.idx w' (.member o' f') (.var v)))
    charge p = w ∧ executed p = w + w' := by
  refine ⟨?_, ?_⟩
  · simp [charge, visitP, visit, access, St.new, label, dep, set]
  · simp [executed, readsOf, bytes]

/-- A second loop over an array with the same variable is charged for no bytes. -/
theorem C143_second_loop_refuted (w a v n m : Nat) :
    let p : P := .seq (.loop v n (.expr (.idx w (.var a) (.var v)))) (.loop v m (.expr (.idx w (.var a) (.var v))))
    charge p = n * w ∧ executed p = n * w + m * w := by
  refine ⟨?_, ?_⟩
  · simp [charge, visitP, visit, access, St.new, label, dep, set]
  · simp [executed, readsOf, bytes]

/-- An index that is stepped between two reads goes unnoticed. -/
theorem C143_step_refuted (w a v : Nat) :
    let p : P := .seq (.expr (.idx w (.var a) (.var v))) (.seq (.expr (.unary (.var v))) (.expr (.idx w (.var a) (.var v))))
    charge p = w ∧ executed p = w + w := by
  refine ⟨?_, ?_⟩
  · simp [charge, visitP, visit, access, St.new, label, dep, set]
  · simp [executed, readsOf, bytes]

/-- The read of an element of an array of arrays is charged for the whole row as well. -/
theorem C143_rows_refuted (w row a v v' : Nat) :
    charge (.expr (.idx w (.row row (.var a) (.var v)) (.var v'))) = row + w ∧ executed (.expr (.idx w (.row row (.var a) (.var v)) (.var v'))) = w := by
  refine ⟨?_, ?_⟩
  · simp [charge, visitP, visit, access, St.new, label, dep, set]
  · simp [executed, readsOf, bytes]

/-- `a[v] += n` reads an element and is charged for no bytes. -/
theorem C143_update_refuted (w a v : Nat) (n : Int) :
    charge (.update (.idx w (.var a) (.var v)) (.lit n)) = 0 ∧ executed (.update (.idx w (.var a) (.var v)) (.lit n)) = w := by
  refine ⟨?_, ?_⟩
  · simp [charge, visitP, visit, access]
  · simp [executed, readsOf, bytes]

/-- `&a[v]` reads nothing and is charged for the element. -/
theorem C143_address_refuted (w a v : Nat) :
    charge (.expr (.addr (.idx w (.var a) (.var v)))) = w ∧ executed (.expr (.addr (.idx w (.var a) (.var v)))) = 0 := by
  refine ⟨?_, ?_⟩
  · simp [charge, visitP, visit, access, St.new, label, dep]
  · simp [executed, readsOf, bytes]

end Verif.Clang.Memory
