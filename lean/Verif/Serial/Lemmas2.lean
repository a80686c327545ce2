import Verif.Serial.Lemmas
namespace SST.Serial

/-! ### packing -/

theorem put_some {b b' : Buf} {pos q : Nat} {c : List Byte} (h : b.put pos c = some (b', q)) :
    pos + c.length ≤ b.max ∧ q = pos + c.length ∧ b'.max = b.max ∧
    (∀ i (hi : i < c.length), b'.mem (pos + i) = c[i]) ∧
    (∀ i, i < pos ∨ pos + c.length ≤ i → b'.mem i = b.mem i) := by
  unfold Buf.put at h
  split at h
  · cases h
  · injection h with h; injection h with h1 h2
    subst h1 h2
    refine ⟨by omega, rfl, rfl, ?_, ?_⟩
    · intro i hi
      show (if _ then _ else _) = _
      rw [if_pos (by omega), Nat.add_sub_cancel_left, List.getD_eq_getElem?_getD, List.getElem?_eq_getElem hi]
      rfl
    · intro i hi
      show (if _ then _ else _) = _
      rw [if_neg (by omega)]

theorem put_none {b : Buf} {pos : Nat} {c : List Byte} (h : b.put pos c = none) : b.max < pos + c.length := by
  unfold Buf.put at h
  split at h
  · assumption
  · cases h

/-- nothing outside `[pos, max)` changes, whatever is packed -/
theorem putAll_outside (cs : List (List Byte)) : ∀ (b : Buf) (pos i : Nat), (i < pos ∨ b.max ≤ i) →
    (b.putAll pos cs).1.mem i = b.mem i ∧ (b.putAll pos cs).1.max = b.max := by
  induction cs with
  | nil => intro b pos i _; exact ⟨rfl, rfl⟩
  | cons c cs ih =>
    intro b pos i hi
    unfold Buf.putAll
    cases h : b.put pos c with
    | none => exact ⟨rfl, rfl⟩
    | some r =>
      obtain ⟨b', q⟩ := r
      obtain ⟨h1, h2, h3, h4, h5⟩ := put_some h
      obtain ⟨g1, g2⟩ := ih b' q i (by omega)
      exact ⟨g1.trans (h5 i (by omega)), g2.trans h3⟩

theorem putAll_some (cs : List (List Byte)) : ∀ (b : Buf) (pos : Nat), pos + cs.flatten.length ≤ b.max →
    (b.putAll pos cs).2 = some (pos + cs.flatten.length) ∧
    Holds (b.putAll pos cs).1 pos cs.flatten ∧
    (∀ i, i < pos ∨ pos + cs.flatten.length ≤ i → (b.putAll pos cs).1.mem i = b.mem i) := by
  induction cs with
  | nil =>
    intro b pos h
    refine ⟨rfl, ⟨h, fun i hi => absurd hi (by simp)⟩, fun _ _ => rfl⟩
  | cons c cs ih =>
    intro b pos hl
    simp only [List.flatten_cons, List.length_append] at hl ⊢
    unfold Buf.putAll
    cases h : b.put pos c with
    | none => have := put_none h; omega
    | some r =>
      obtain ⟨b', q⟩ := r
      obtain ⟨h1, h2, h3, h4, h5⟩ := put_some h
      subst h2
      obtain ⟨g1, g2, g3⟩ := ih b' (pos + c.length) (by omega)
      have hmax := (putAll_outside cs b' (pos + c.length) (b'.max) (Or.inr (Nat.le_refl _))).2
      refine ⟨by simp only [g1]; congr 1; omega, ⟨?_, ?_⟩, ?_⟩
      · simp only [hmax, List.length_append]; omega
      · intro i hi
        simp only [List.length_append] at hi
        by_cases hc : i < c.length
        · rw [List.getElem_append_left hc]
          show (b'.putAll (pos + c.length) cs).1.mem (pos + i) = _
          rw [(putAll_outside cs b' (pos + c.length) (pos + i) (by omega)).1]
          exact h4 i hc
        · rw [List.getElem_append_right (by omega)]
          have := g2.2 (i - c.length) (by omega)
          rw [← this]
          show (b'.putAll (pos + c.length) cs).1.mem (pos + i) = _
          congr 1; omega
      · intro i hi
        show (b'.putAll (pos + c.length) cs).1.mem i = _
        rw [g3 i (by omega)]
        exact h5 i (by omega)

theorem putAll_none (cs : List (List Byte)) : ∀ (b : Buf) (pos : Nat), b.max < pos + cs.flatten.length →
    pos ≤ b.max → (b.putAll pos cs).2 = none := by
  induction cs with
  | nil => intro b pos h1 h2; simp at h1; omega
  | cons c cs ih =>
    intro b pos hl hp
    simp only [List.flatten_cons, List.length_append] at hl
    unfold Buf.putAll
    cases h : b.put pos c with
    | none => rfl
    | some r =>
      obtain ⟨b', q⟩ := r
      obtain ⟨h1, h2, h3, h4, h5⟩ := put_some h
      subst h2
      exact ih b' _ (by omega) (by omega)

/-! ### sizing -/

theorem sum_flatMap {α : Type} {f : α → Nat} {g : α → List (List Byte)} {xs : List α}
    (h : ∀ x ∈ xs, f x = (g x).flatten.length) : (xs.map f).sum = (xs.flatMap g).flatten.length := by
  induction xs with
  | nil => rfl
  | cons x xs ih =>
    simp only [List.map_cons, List.sum_cons, List.flatMap_cons, List.flatten_append, List.length_append]
    rw [h x (List.mem_cons_self ..), ih (fun y hy => h y (List.mem_cons_of_mem _ hy))]

theorem Pointwise.exists {α β : Type} {R : α → β → Prop} {as : List α} {bs : List β}
    (h : Pointwise R as bs) : ∀ b ∈ bs, ∃ a, R a b := by
  induction h with
  | nil => intro b hb; cases hb
  | cons h1 _ ih =>
    intro b hb
    cases hb with
    | head => exact ⟨_, h1⟩
    | tail _ hb => exact ih b hb

theorem size_chunks (c : Cmp) : ∀ (t : Ty) (o v : t.den), Fits c t o v →
    size t v = (chunks t v).flatten.length := by
  intro t
  induction t with
  | prim n => intro o v h; change List Byte at v; simp only [Fits] at h; simp [size, chunks, h]
  | bool => intro o v h; simp [size, chunks, le_length]
  | str => intro o v h; change List Byte at v; simp [size, chunks, le_length]
  | arr w n => intro o v h; change List Byte at v; simp only [Fits] at h; simp [size, chunks, h]
  | bin isVoid iw w =>
    intro o v h
    obtain ⟨sz, buf⟩ := v
    cases buf with
    | none => simp only [Fits] at h; subst h; simp [size, chunks, le_length]
    | some data =>
      simp only [Fits] at h
      simp [size, chunks, le_length, if_neg (show ¬ sz = 0 by omega), h.2.2.2.2]
  | unit => intro o v h; simp [size, chunks]
  | pair s t ihs iht =>
    intro o v h
    obtain ⟨x, y⟩ := v; obtain ⟨ox, oy⟩ := o
    simp only [Fits] at h
    simp only [size, chunks, List.flatten_append, List.length_append, ihs _ _ h.1, iht _ _ h.2]
  | vec t ih =>
    intro o v h
    change List t.den at o v
    simp only [Fits] at h
    simp only [size, chunks, List.flatten_cons, List.length_append, le_length]
    rw [sum_flatMap (fun x hx => by obtain ⟨a, ha⟩ := h.2.exists x hx; exact ih a x ha)]
  | list t ih =>
    intro o v h
    change List t.den at o v
    simp only [Fits] at h
    simp only [size, chunks, List.flatten_cons, List.length_append, le_length]
    rw [sum_flatMap (fun x hx => ih _ x (h.2.2 x hx))]
  | set t ih =>
    intro o v h
    change List t.den at o v
    simp only [Fits] at h
    simp only [size, chunks, List.flatten_cons, List.length_append, le_length]
    rw [sum_flatMap (fun x hx => ih _ x (h.2.2.1 x hx))]
  | map k t ihk iht =>
    intro o v h
    change List (k.den × t.den) at o v
    simp only [Fits] at h
    simp only [size, chunks, List.flatten_cons, List.length_append, le_length]
    rw [sum_flatMap (g := fun e => chunks k e.1 ++ chunks t e.2) (fun x hx => by
      simp only [List.flatten_append, List.length_append]
      rw [ihk _ _ (h.2.2.1 x hx).1, iht _ _ (h.2.2.1 x hx).2])]
  | ptr known init cls ih =>
    intro o v h
    cases v with
    | null => simp [size, chunks, le_length]
    | wild => simp [size, chunks, le_length]
    | obj i a =>
      simp only [Fits] at h
      simp only [size, chunks, List.flatten_cons, List.length_append, le_length]
      rw [ih i _ _ h.2.2]

/-! ### unpacking reads nothing beyond the buffer -/

/-- the bytes of the buffer are the same -/
def Agree (b b' : Buf) : Prop := b.max = b'.max ∧ ∀ i, i < b.max → b.mem i = b'.mem i

theorem get_agree {b b' : Buf} (h : Agree b b') (n pos : Nat) : b.get n pos = b'.get n pos := by
  unfold Buf.get
  rw [← h.1]
  split
  · rfl
  · congr 2
    apply List.map_congr_left
    intro i hi
    have := List.mem_range.1 hi
    exact h.2 _ (by omega)

theorem get_le_max {b : Buf} {n pos q : Nat} {bs : List Byte} (h : b.get n pos = some (bs, q)) :
    q ≤ b.max ∧ pos ≤ q ∧ q = pos + n := by
  unfold Buf.get at h
  split at h
  · cases h
  · injection h with h; injection h with h1 h2; omega

theorem each_congr {α β : Type} {f g : α → Nat → Option (β × Nat)} (h : ∀ a p, f a p = g a p)
    (as : List α) (p : Nat) : each f as p = each g as p := by
  rw [show f = g from funext fun a => funext fun p => h a p]

theorem each_le {α β : Type} {f : α → Nat → Option (β × Nat)} {m : Nat}
    (h : ∀ a p x q, p ≤ m → f a p = some (x, q) → p ≤ q ∧ q ≤ m) (as : List α) :
    ∀ (p : Nat) (xs : List β) (q : Nat), p ≤ m → each f as p = some (xs, q) → p ≤ q ∧ q ≤ m := by
  induction as with
  | nil => intro p xs q hp he; simp [each] at he; omega
  | cons a as ih =>
    intro p xs q hp he
    simp only [each] at he
    split at he
    · cases he
    · rename_i x p' hx
      have h1 := h _ _ _ _ hp hx
      split at he
      · cases he
      · rename_i ys q' hy
        have h2 := ih _ _ _ h1.2 hy
        injection he with he; injection he with _ he
        omega

theorem ite_some {α : Type} {p : Prop} [Decidable p] {x : Option α} {y : α}
    (h : (if p then none else x) = some y) : x = some y := by
  split at h
  · cases h
  · exact h

theorem unpack_agree (c : Cmp) {b b' : Buf} (h : Agree b b') : ∀ (t : Ty) (o : t.den) (pos : Nat),
    unpack c b t o pos = unpack c b' t o pos := by
  intro t
  induction t with
  | prim n => intro o pos; exact get_agree h _ _
  | bool => intro o pos; simp only [unpack, get_agree h]
  | str => intro o pos; simp only [unpack, get_agree h]
  | arr w n => intro o pos; exact get_agree h _ _
  | bin isVoid iw w => intro o pos; simp only [unpack, get_agree h]
  | unit => intro o pos; simp only [unpack]
  | pair s t ihs iht =>
    intro o pos; obtain ⟨x, y⟩ := o
    simp only [unpack, ihs, iht]
  | vec t ih =>
    intro o pos
    simp only [unpack, get_agree h, each_congr ih]
  | list t ih =>
    intro o pos
    simp only [unpack, get_agree h, each_congr ih]
  | set t ih =>
    intro o pos
    simp only [unpack, get_agree h, each_congr ih]
  | map k t ihk iht =>
    intro o pos
    simp only [unpack, get_agree h, ihk, iht]
  | ptr known init cls ih =>
    intro o pos
    simp only [unpack, get_agree h, ih]

theorem unpack_le (c : Cmp) {b : Buf} : ∀ (t : Ty) (o : t.den) (pos : Nat) (v : t.den) (q : Nat),
    pos ≤ b.max → unpack c b t o pos = some (v, q) → pos ≤ q ∧ q ≤ b.max := by
  intro t
  induction t with
  | prim n => intro o pos v q hp he; have := get_le_max (show b.get n pos = some (v, q) from he); omega
  | bool =>
    intro o pos v q hp he
    simp only [unpack] at he
    split at he
    · cases he
    · rename_i hg; have := get_le_max hg; injection he with he; injection he with _ he; omega
  | str =>
    intro o pos v q hp he
    simp only [unpack] at he
    split at he
    · cases he
    · rename_i hg
      have := get_le_max hg
      have he' := ite_some (x := b.get _ _) he
      have := get_le_max he'; omega
  | arr w n => intro o pos v q hp he; have := get_le_max (show b.get (w * n) pos = some (v, q) from he); omega
  | bin isVoid iw w =>
    intro o pos v q hp he
    simp only [unpack] at he
    split at he
    · cases he
    · rename_i hg
      have := get_le_max hg
      split at he
      · injection he with he; injection he with _ he; omega
      · split at he
        · cases he
        · split at he
          · cases he
          · rename_i hg2
            have := get_le_max hg2
            injection he with he; injection he with _ he; omega
  | unit => intro o pos v q hp he; simp only [unpack] at he; injection he with he; injection he with _ he; omega
  | pair s t ihs iht =>
    intro o pos v q hp he
    obtain ⟨x, y⟩ := o
    simp only [unpack] at he
    split at he
    · cases he
    · rename_i h1
      have a1 := ihs _ _ _ _ hp h1
      split at he
      · cases he
      · rename_i h2
        have a2 := iht _ _ _ _ a1.2 h2
        injection he with he; injection he with _ he; omega
  | vec t ih =>
    intro o pos v q hp he
    simp only [unpack] at he
    split at he
    · cases he
    · rename_i hg
      have := get_le_max hg
      have he' := ite_some (x := each _ _ _) he
      have := each_le (m := b.max) ih _ _ _ _ (by omega) he'; omega
  | list t ih =>
    intro o pos v q hp he
    simp only [unpack] at he
    split at he
    · cases he
    · rename_i hg
      have := get_le_max hg
      split at he
      · cases he
      · split at he
        · cases he
        · rename_i hx
          have := each_le (m := b.max) ih _ _ _ _ (by omega) hx
          injection he with he; injection he with _ he; omega
  | set t ih =>
    intro o pos v q hp he
    simp only [unpack] at he
    split at he
    · cases he
    · rename_i hg
      have := get_le_max hg
      split at he
      · cases he
      · split at he
        · cases he
        · rename_i hx
          have := each_le (m := b.max) ih _ _ _ _ (by omega) hx
          injection he with he; injection he with _ he; omega
  | map k t ihk iht =>
    intro o pos v q hp he
    simp only [unpack] at he
    split at he
    · cases he
    · rename_i hg
      have := get_le_max hg
      split at he
      · cases he
      · split at he
        · cases he
        · rename_i hx
          have := each_le (m := b.max) (fun a p x q' hp' he' => by
            split at he'
            · cases he'
            · rename_i h1
              have a1 := ihk _ _ _ _ hp' h1
              split at he'
              · cases he'
              · rename_i h2
                have a2 := iht _ _ _ _ a1.2 h2
                injection he' with he'; injection he' with _ he'; omega) _ _ _ _ (by omega) hx
          injection he with he; injection he with _ he; omega
  | ptr known init cls ih =>
    intro o pos v q hp he
    simp only [unpack] at he
    split at he
    · cases he
    · rename_i hg
      have := get_le_max hg
      split at he
      · injection he with he; injection he with _ he; omega
      · split at he
        · split at he
          · cases he
          · rename_i hx
            have := ih _ _ _ _ _ (by omega) hx
            injection he with he; injection he with _ he; omega
        · cases he

end SST.Serial
