import Verif.Serial.Spec
namespace SST.Serial

/-! ### integers -/

theorem le_length (n x : Nat) : (le n x).length = n := by
  induction n generalizing x with
  | zero => rfl
  | succ n ih => simp [le, ih]

theorem ofLe_le (n x : Nat) (h : x < 256 ^ n) : ofLe (le n x) = x := by
  induction n generalizing x with
  | zero => simp [le, ofLe] at *; omega
  | succ n ih =>
    simp only [le, ofLe, BitVec.toNat_ofNat]
    rw [ih (x / 256) (by rw [Nat.pow_succ] at h; omega)]
    omega

/-! ### what a buffer holds -/

/-- bytes `bs` are in the buffer at `pos` -/
def Holds (b : Buf) (pos : Nat) (bs : List Byte) : Prop :=
  pos + bs.length ≤ b.max ∧ ∀ i (h : i < bs.length), b.mem (pos + i) = bs[i]

theorem Holds.left {b : Buf} {pos : Nat} {x y : List Byte} (h : Holds b pos (x ++ y)) : Holds b pos x := by
  refine ⟨?_, ?_⟩
  · have := h.1; simp at this; omega
  · intro i hi
    rw [h.2 i (by simp; omega), List.getElem_append_left hi]

theorem Holds.right {b : Buf} {pos : Nat} {x y : List Byte} (h : Holds b pos (x ++ y)) :
    Holds b (pos + x.length) y := by
  refine ⟨?_, ?_⟩
  · have := h.1; simp at this; omega
  · intro i hi
    have := h.2 (x.length + i) (by simp; omega)
    rw [List.getElem_append_right (by omega)] at this
    simp only [Nat.add_sub_cancel_left] at this
    rw [← this]; congr 1; omega

theorem get_holds {b : Buf} {pos : Nat} {bs : List Byte} (h : Holds b pos bs) {n : Nat} (hn : bs.length = n) :
    b.get n pos = some (bs, pos + n) := by
  subst hn
  unfold Buf.get
  have := h.1
  rw [if_neg (by omega)]
  congr 2
  apply List.ext_getElem
  · simp
  · intro i h1 h2
    simp only [List.getElem_map, List.getElem_range]
    exact h.2 i h2

theorem get_le {b : Buf} {pos n x : Nat} {rest : List Byte} (h : Holds b pos (le n x ++ rest)) :
    b.get n pos = some (le n x, pos + n) ∧ Holds b (pos + n) rest := by
  refine ⟨get_holds h.left (le_length _ _), ?_⟩
  have := h.right
  rwa [le_length] at this

/-! ### containers -/

theorem each_holds {α β : Type} {b : Buf} {f : α → Nat → Option (β × Nat)} {g : β → List (List Byte)}
    {R : α → β → Prop}
    (hf : ∀ a x pos rest, R a x → Holds b pos ((g x).flatten ++ rest) →
      f a pos = some (x, pos + (g x).flatten.length))
    {as : List α} {xs : List β} (hR : Pointwise R as xs) :
    ∀ {pos : Nat} {rest : List Byte}, Holds b pos ((xs.flatMap g).flatten ++ rest) →
      each f as pos = some (xs, pos + (xs.flatMap g).flatten.length) := by
  induction hR with
  | nil => intro pos rest _; simp [each]
  | @cons a x as xs h _ ih =>
    intro pos rest hh
    simp only [List.flatMap_cons, List.flatten_append, List.append_assoc] at hh ⊢
    simp only [each, hf a x pos _ h hh]
    rw [ih hh.right]
    simp only [List.length_append]
    congr 2; omega

theorem forall2_replicate {α β : Type} {R : α → β → Prop} {a : α} {xs : List β} (h : ∀ x ∈ xs, R a x) :
    Pointwise R (List.replicate xs.length a) xs := by
  induction xs with
  | nil => exact .nil
  | cons x xs ih =>
    exact .cons (h x (List.mem_cons_self ..)) (ih (fun y hy => h y (List.mem_cons_of_mem _ hy)))

theorem setInsert_last {α : Type} {lt : α → α → Bool} (asymm : ∀ a b, lt a b = true → lt b a = false)
    {a : α} {xs : List α} (h : ∀ x ∈ xs, lt x a = true) : setInsert lt a xs = xs ++ [a] := by
  induction xs with
  | nil => rfl
  | cons x xs ih =>
    have h1 := h x (List.mem_cons_self ..)
    simp only [setInsert, asymm _ _ h1, h1, if_true, Bool.false_eq_true, if_false, List.cons_append]
    rw [ih (fun y hy => h y (List.mem_cons_of_mem _ hy))]

theorem set_foldl {α : Type} {lt : α → α → Bool} (asymm : ∀ a b, lt a b = true → lt b a = false)
    (xs : List α) : ∀ acc : List α, (acc ++ xs).Pairwise (fun a b => lt a b = true) →
    setInsertAll lt acc xs = acc ++ xs := by
  induction xs with
  | nil => intro acc _; simp [setInsertAll]
  | cons x xs ih =>
    intro acc h
    simp only [setInsertAll, List.foldl_cons] at ih ⊢
    rw [setInsert_last asymm (by
      intro y hy
      exact (List.pairwise_append.1 h).2.2 y hy x (List.mem_cons_self ..))]
    rw [ih _ (by simpa using h)]
    simp

theorem mapAssign_last {α β : Type} {lt : α → α → Bool} (asymm : ∀ a b, lt a b = true → lt b a = false)
    {a : α} {b : β} {xs : List (α × β)} (h : ∀ x ∈ xs, lt x.1 a = true) :
    mapAssign lt a b xs = xs ++ [(a, b)] := by
  induction xs with
  | nil => rfl
  | cons x xs ih =>
    have h1 := h x (List.mem_cons_self ..)
    simp only [mapAssign, asymm _ _ h1, h1, if_true, Bool.false_eq_true, if_false, List.cons_append]
    rw [ih (fun y hy => h y (List.mem_cons_of_mem _ hy))]

theorem map_foldl {α β : Type} {lt : α → α → Bool} (asymm : ∀ a b, lt a b = true → lt b a = false)
    (xs : List (α × β)) : ∀ acc : List (α × β), (acc ++ xs).Pairwise (fun a b => lt a.1 b.1 = true) →
    mapAssignAll lt acc xs = acc ++ xs := by
  induction xs with
  | nil => intro acc _; simp [mapAssignAll]
  | cons x xs ih =>
    intro acc h
    simp only [mapAssignAll, List.foldl_cons] at ih ⊢
    rw [mapAssign_last asymm (by
      intro y hy
      exact (List.pairwise_append.1 h).2.2 y hy x (List.mem_cons_self ..))]
    rw [ih _ (by simpa using h)]
    simp

theorem two31 : (2:Nat) ^ 31 < 256 ^ 8 := by decide

/-- unpacking the packed bytes gives the value back, whatever follows -/
theorem unpack_holds (c : Cmp) (b : Buf) : ∀ (t : Ty) (o v : t.den) (pos : Nat) (rest : List Byte),
    Fits c t o v → Holds b pos ((chunks t v).flatten ++ rest) →
    unpack c b t o pos = some (v, pos + (chunks t v).flatten.length) := by
  intro t
  induction t with
  | prim n =>
    intro o v pos rest hf hh
    change List Byte at v
    simp only [Fits] at hf
    simp only [chunks, List.flatten_cons, List.flatten_nil, List.append_nil] at hh ⊢
    simp only [unpack]
    rw [get_holds hh.left hf, hf]
    rfl
  | bool =>
    intro o v pos rest hf hh
    simp only [chunks, List.flatten_cons, List.flatten_nil, List.append_nil] at hh ⊢
    simp only [unpack, (get_le hh).1, le_length]
    rw [ofLe_le _ _ (by split <;> decide)]
    change Bool at v
    cases v <;> simp
  | str =>
    intro o v pos rest hf hh
    change List Byte at v
    simp only [Fits] at hf
    simp only [chunks, List.flatten_cons, List.flatten_nil, List.append_nil, List.append_assoc] at hh ⊢
    obtain ⟨h1, h2⟩ := get_le hh
    simp only [unpack, h1]
    rw [ofLe_le _ _ (by omega)]
    refine (if_neg (by omega)).trans ((get_holds h2.left rfl).trans ?_)
    simp only [List.length_append, le_length]
    congr 2; omega
  | arr w n =>
    intro o v pos rest hf hh
    change List Byte at v
    simp only [Fits] at hf
    simp only [chunks, List.flatten_cons, List.flatten_nil, List.append_nil] at hh ⊢
    simp only [unpack]
    rw [get_holds hh.left hf, hf]
    rfl
  | bin isVoid iw w =>
    intro o v pos rest hf hh
    obtain ⟨sz, buf⟩ := v
    cases buf with
    | none =>
      simp only [Fits] at hf
      subst hf
      simp only [chunks, List.flatten_cons, List.flatten_nil, List.append_nil] at hh ⊢
      simp only [unpack, (get_le hh).1, le_length]
      rw [ofLe_le _ _ (Nat.pow_pos (by decide))]
      simp
    | some data =>
      simp only [Fits] at hf
      obtain ⟨g1, g2, g3, g4, g5⟩ := hf
      have hpos : 0 < sz * w := Nat.mul_pos g1 g3
      simp only [chunks, if_neg (show ¬ sz = 0 by omega), List.flatten_cons, List.flatten_nil,
        List.append_nil, List.append_assoc] at hh ⊢
      rw [show data.take (sz * w) = data by rw [← g5]; simp] at hh ⊢
      obtain ⟨h1, h2⟩ := get_le hh
      simp only [unpack, h1]
      rw [ofLe_le _ _ g2]
      have hm : sz * w % 2 ^ 32 = sz * w := Nat.mod_eq_of_lt (by omega)
      rw [hm, if_neg (by omega), if_neg (by omega), get_holds h2.left g5]
      simp only [List.length_append, le_length, g5]
      congr 2; omega
  | unit => intro o v pos rest _ _; change Unit at v; simp [unpack, chunks]
  | pair s t ihs iht =>
    intro o v pos rest hf hh
    obtain ⟨x, y⟩ := v
    obtain ⟨ox, oy⟩ := o
    simp only [Fits] at hf
    simp only [chunks, List.flatten_append, List.append_assoc] at hh ⊢
    simp only [unpack, ihs ox x pos _ hf.1 hh, iht oy y _ _ hf.2 hh.right]
    simp only [List.length_append]
    congr 2; omega
  | vec t ih =>
    intro o v pos rest hf hh
    change List t.den at o v
    simp only [Fits] at hf
    simp only [chunks, List.flatten_cons, List.append_assoc] at hh ⊢
    obtain ⟨h1, h2⟩ := get_le hh
    have := two31
    simp only [unpack, h1]
    rw [ofLe_le _ _ (by omega)]
    refine (if_neg (by omega)).trans
      ((each_holds (R := Fits c t) (fun a x p r h hh => ih a x p r h hh) hf.2 h2).trans ?_)
    simp only [List.length_append, le_length]
    congr 2; omega
  | list t ih =>
    intro o v pos rest hf hh
    change List t.den at o v
    simp only [Fits] at hf
    simp only [chunks, List.flatten_cons, List.append_assoc] at hh ⊢
    obtain ⟨h1, h2⟩ := get_le hh
    have := two31
    simp only [unpack, h1]
    rw [ofLe_le _ _ (by omega), if_neg (by omega)]
    rw [each_holds (R := Fits c t) (fun a x p r h hh => ih a x p r h hh) (forall2_replicate hf.2.2) h2]
    simp only [hf.1, List.nil_append, List.length_append, le_length]
    congr 2; omega
  | set t ih =>
    intro o v pos rest hf hh
    change List t.den at o v
    simp only [Fits] at hf
    simp only [chunks, List.flatten_cons, List.append_assoc] at hh ⊢
    obtain ⟨h1, h2⟩ := get_le hh
    have := two31
    simp only [unpack, h1]
    rw [ofLe_le _ _ (by omega), if_neg (by omega)]
    rw [each_holds (R := Fits c t) (fun a x p r h hh => ih a x p r h hh) (forall2_replicate hf.2.2.1) h2]
    simp only [hf.1]
    rw [set_foldl (c.asymm t) _ [] (by simpa using hf.2.2.2)]
    simp only [List.nil_append, List.length_append, le_length]
    congr 2; omega
  | map k t ihk iht =>
    intro o v pos rest hf hh
    change List (k.den × t.den) at o v
    simp only [Fits] at hf
    simp only [chunks, List.flatten_cons, List.append_assoc] at hh ⊢
    obtain ⟨h1, h2⟩ := get_le hh
    have := two31
    simp only [unpack, h1]
    rw [ofLe_le _ _ (by omega), if_neg (by omega)]
    rw [each_holds (g := fun e => chunks k e.1 ++ chunks t e.2)
      (R := fun a x => Fits c k a.1 x.1 ∧ Fits c t a.2 x.2) ?_ (forall2_replicate hf.2.2.1) h2]
    · simp only [hf.1]
      rw [map_foldl (c.asymm k) _ [] (by simpa using hf.2.2.2)]
      simp only [List.nil_append, List.length_append, le_length]
      congr 2; omega
    · intro a x p r h hh
      simp only [List.flatten_append, List.append_assoc] at hh ⊢
      rw [ihk _ _ _ _ h.1 hh]
      simp only
      rw [iht _ _ _ _ h.2 hh.right]
      simp only [List.length_append]
      congr 2; omega
  | ptr known init cls ih =>
    intro o v pos rest hf hh
    cases v with
    | null =>
      simp only [chunks, List.flatten_cons, List.flatten_nil, List.append_nil] at hh
      have h1 := (get_le hh).1
      have hu : unpack c b (.ptr known init cls) o pos = some (o, pos + 8) := by
        simp only [unpack, h1]
        rw [ofLe_le _ _ (by decide)]
        simp
      rw [hu]
      have ho : o = Ptr.null := hf
      rw [ho]
      simp [chunks, le_length]
    | wild => exact absurd hf (by simp [Fits])
    | obj i a =>
      simp only [Fits] at hf
      simp only [chunks, List.flatten_cons, List.append_assoc] at hh ⊢
      obtain ⟨h1, h2⟩ := get_le hh
      simp only [unpack, h1]
      rw [ofLe_le _ _ (by omega), if_neg (by omega), Nat.mod_eq_of_lt hf.2.1, if_pos hf.1]
      rw [ih i _ _ _ _ hf.2.2 h2]
      simp only [List.length_append, le_length]
      congr 2; omega

end SST.Serial
