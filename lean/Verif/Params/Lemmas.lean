import Verif.Params.Model
/-!
# Lemmas on parameter scopes
-/
set_option autoImplicit false

namespace Params

/-! ## Maps -/

theorem aget_aset (k v k' : Str) (ps : List (Str × Str)) :
    aget k' (aset k v ps) = if k' = k then some v else aget k' ps := by
  induction ps with
  | nil => simp [aset, aget, eq_comm]
  | cons e r ih =>
    obtain ⟨a, b⟩ := e
    by_cases h : a = k
    · subst h
      by_cases h2 : a = k'
      · subst h2; simp [aset, aget]
      · have h3 : k' ≠ a := fun h => h2 h.symm
        simp [aset, aget, h2, h3]
    · by_cases h2 : a = k'
      · subst h2; simp [aset, aget, h]
      · simp [aset, aget, h, h2, ih]

theorem aget_adel (k k' : Str) (ps : List (Str × Str)) :
    aget k' (adel k ps) = if k' = k then none else aget k' ps := by
  induction ps with
  | nil => simp [adel, aget]
  | cons e r ih =>
    obtain ⟨a, b⟩ := e
    simp only [adel] at ih
    by_cases h : a = k
    · subst h
      by_cases h2 : k' = a
      · subst h2; simp [adel, ih]
      · have h3 : a ≠ k' := fun h => h2 h.symm
        simp [adel, aget, ih, h2, h3]
    · by_cases h2 : a = k'
      · subst h2; simp [adel, aget, h]
      · simp [adel, aget, h, h2, ih]

theorem get_put (n m : Str) (t : Tree) (fs : Forest) :
    (fs.put n t).get? m = if m = n then some t else fs.get? m := by
  match fs with
  | .nil => simp [Forest.put, Forest.get?, eq_comm]
  | .cons a u r =>
    have ih := get_put n m t r
    by_cases h : a = n
    · subst h
      by_cases h2 : m = a
      · subst h2; simp [Forest.put, Forest.get?]
      · have h3 : a ≠ m := fun h => h2 h.symm
        simp [Forest.put, Forest.get?, h2, h3]
    · by_cases h2 : a = m
      · subst h2; simp [Forest.put, Forest.get?, h]
      · simp [Forest.put, Forest.get?, h, h2, ih]

/-! ## Lookups -/

theorem lookup_empty (p : List Str) (k : Str) : Tree.empty.lookup p k = none := by
  cases p <;> simp [Tree.empty, Tree.lookup, aget, Forest.get?]

theorem lookup_sub (t : Tree) (n : Str) (p : List Str) (k : Str) :
    (t.sub n).lookup p k = t.lookup (n :: p) k := by
  cases t with
  | node ps fs =>
    simp only [Tree.sub, Tree.lookup]
    cases h : fs.get? n with
    | none => simp [lookup_empty]
    | some u => simp

theorem lookup_setSub_nil (t u : Tree) (n k : Str) :
    (t.setSub n u).lookup [] k = t.lookup [] k := by
  cases t; simp [Tree.setSub, Tree.lookup]

theorem lookup_setSub_cons (t u : Tree) (n m : Str) (p : List Str) (k : Str) :
    (t.setSub n u).lookup (m :: p) k = if m = n then u.lookup p k else t.lookup (m :: p) k := by
  cases t with
  | node ps fs =>
    simp only [Tree.setSub, Tree.lookup, get_put]
    by_cases h : m = n
    · simp [h]
    · simp [h]

theorem lookup_setSub_sub (t : Tree) (n : Str) (p : List Str) (k : Str) :
    (t.setSub n (t.sub n)).lookup p k = t.lookup p k := by
  cases p with
  | nil => exact lookup_setSub_nil ..
  | cons m p =>
    rw [lookup_setSub_cons]
    split
    · next h => subst h; exact lookup_sub ..
    · rfl

/-- A change at one place of a scope. -/
def Point (t t' : Tree) (q : List Str) (key : Str) (x : Option Str) : Prop :=
  ∀ (p : List Str) (k : Str),
    t'.lookup p k = if p = q ∧ k = key then x else t.lookup p k

theorem point_sub {t u : Tree} {n : Str} {q : List Str} {key : Str} {x : Option Str}
    (h : Point (t.sub n) u q key x) : Point t (t.setSub n u) (n :: q) key x := by
  intro p k
  cases p with
  | nil => simp [lookup_setSub_nil]
  | cons m p =>
    rw [lookup_setSub_cons]
    by_cases hm : m = n
    · subst hm; rw [if_pos rfl, h p k, lookup_sub]; simp
    · rw [if_neg hm]; simp [hm]

theorem removeAt_point (q : List Str) : ∀ (key : Str) (t : Tree),
    Point t (removeAt q key t) q key none := by
  induction q with
  | nil =>
    intro key t p k
    cases t with
    | node ps fs =>
      cases p with
      | nil => simp [removeAt, Tree.lookup, aget_adel]
      | cons m p => simp [removeAt, Tree.lookup]
  | cons n q ih =>
    intro key t
    simpa [removeAt] using point_sub (ih key (t.sub n))

/-- What an assignment leaves at its place. -/
def newVal (m : Mode) (old : Option Str) (v : Str) : Option (Option Str) :=
  match old with
  | none => some (some v)
  | some w => if m.fail then none else if m.over then some (some v) else some (some w)

theorem addAt_some (m : Mode) (q : List Str) : ∀ (key v : Str) (t : Tree) (x : Option Str),
    newVal m (t.lookup q key) v = some x → ∃ t', addAt m q key v t = .ok t' ∧ Point t t' q key x := by
  induction q with
  | nil =>
    intro key v t x hx
    cases t with
    | node ps fs =>
      simp only [Tree.lookup] at hx
      unfold newVal at hx
      simp only [addAt, put]
      cases hg : aget key ps with
      | none =>
        rw [hg] at hx
        simp only [Option.some.injEq] at hx
        refine ⟨_, rfl, ?_⟩
        intro p k
        cases p with
        | nil => simp [Tree.lookup, aget_aset, hx]
        | cons a p => simp [Tree.lookup]
      | some w =>
        rw [hg] at hx
        simp only at hx ⊢
        by_cases hf : m.fail = true
        · simp [hf] at hx
        · by_cases ho : m.over = true
          · simp only [hf, ho, if_true] at hx ⊢
            simp only [Bool.false_eq_true, if_false, Option.some.injEq] at hx
            refine ⟨_, rfl, ?_⟩
            intro p k
            cases p with
            | nil => simp [Tree.lookup, aget_aset, hx]
            | cons a p => simp [Tree.lookup]
          · simp only [hf, ho] at hx ⊢
            simp only [Bool.false_eq_true, if_false, Option.some.injEq] at hx
            refine ⟨_, rfl, ?_⟩
            intro p k
            cases p with
            | nil =>
              by_cases hk : k = key
              · subst hk; simp [Tree.lookup, hg, hx]
              · simp [Tree.lookup, hk]
            | cons a p => simp [Tree.lookup]
  | cons n q ih =>
    intro key v t x hx
    rw [← lookup_sub] at hx
    obtain ⟨u, h1, h2⟩ := ih key v (t.sub n) x hx
    exact ⟨t.setSub n u, by simp [addAt, h1], point_sub h2⟩

theorem addAt_none (m : Mode) (q : List Str) : ∀ (key v : Str) (t : Tree),
    newVal m (t.lookup q key) v = none → addAt m q key v t = .error .abort := by
  induction q with
  | nil =>
    intro key v t hx
    cases t with
    | node ps fs =>
      simp only [Tree.lookup] at hx
      unfold newVal at hx
      simp only [addAt, put]
      cases hg : aget key ps with
      | none => rw [hg] at hx; simp at hx
      | some w =>
        rw [hg] at hx
        simp only at hx ⊢
        by_cases hf : m.fail = true
        · simp [hf]
        · by_cases ho : m.over = true
          · simp [hf, ho] at hx
          · simp [hf, ho] at hx
  | cons n q ih =>
    intro key v t hx
    rw [← lookup_sub] at hx
    simp [addAt, ih key v (t.sub n) hx]

/-! ## The stack of scopes -/

/-- The names of the scopes that are open, outermost first. -/
def pathOf (up : List (Str × Tree)) : List Str := (up.map (·.1)).reverse

theorem closeAll_same (up : List (Str × Tree)) : ∀ (t t' : Tree),
    (∀ (p : List Str) (k : Str), t'.lookup p k = t.lookup p k) →
    ∀ (p : List Str) (k : Str), (closeAll t' up).lookup p k = (closeAll t up).lookup p k := by
  induction up with
  | nil => intro t t' h p k; exact h p k
  | cons e r ih =>
    intro t t' h
    obtain ⟨n, par⟩ := e
    simp only [closeAll]
    apply ih
    intro p k
    cases p with
    | nil => simp [lookup_setSub_nil]
    | cons m p => simp [lookup_setSub_cons, h]

theorem closeAll_point (up : List (Str × Tree)) :
    ∀ (t t' : Tree) (q : List Str) (key : Str) (x : Option Str), Point t t' q key x →
      Point (closeAll t up) (closeAll t' up) (pathOf up ++ q) key x := by
  induction up with
  | nil => intro t t' q key x h; simpa [closeAll, pathOf] using h
  | cons e r ih =>
    intro t t' q key x h
    obtain ⟨n, par⟩ := e
    have h2 : Point (par.setSub n t) (par.setSub n t') (n :: q) key x := by
      intro p k
      cases p with
      | nil => simp [lookup_setSub_nil]
      | cons m p =>
        simp only [lookup_setSub_cons]
        by_cases hm : m = n
        · subst hm; simp [h p k]
        · simp [hm]
    have := ih _ _ _ _ _ h2
    simpa [closeAll, pathOf] using this

end Params
