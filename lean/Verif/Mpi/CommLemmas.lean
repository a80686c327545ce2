import Verif.Mpi.Comm
/-! Lemmas for the theorems of CommProps.lean. -/
set_option autoImplicit false
namespace SST.Mpi.Comm

theorem findTask_spec (t : Int) (l : List Int) (i : Int) :
    (t ∉ l ∧ findTask t i l = undefined) ∨
    ∃ (j : Nat), l[j]? = some t ∧ findTask t i l = i + j ∧ ∀ (k : Nat), k < j → l[k]? ≠ some t := by
  induction l generalizing i with
  | nil => exact Or.inl ⟨by simp, rfl⟩
  | cons x l ih =>
    unfold findTask
    by_cases h : x = t
    · refine Or.inr ⟨0, by simp [h], by simp [h], by omega⟩
    · rw [if_neg h]
      rcases ih (i + 1) with ⟨h1, h2⟩ | ⟨j, h1, h2, h3⟩
      · refine Or.inl ⟨?_, h2⟩
        simp only [List.mem_cons, not_or]
        exact ⟨fun e => h e.symm, h1⟩
      · refine Or.inr ⟨j + 1, by simpa using h1, by rw [h2]; omega, ?_⟩
        intro k hk
        cases k with
        | zero => simpa using h
        | succ k => simpa using h3 k (by omega)

theorem atAll_spec (g : Group) (ranks ts : List Int) (h : atAll g ranks = some ts) :
    ts.length = ranks.length ∧ ∀ (i : Nat) (r : Int), ranks[i]? = some r → ts[i]? = g.at r := by
  induction ranks generalizing ts with
  | nil => simp [atAll] at h; subst h; simp
  | cons r rs ih =>
    unfold atAll at h
    cases h1 : g.at r with
    | none => rw [h1] at h; simp at h
    | some t =>
      cases h2 : atAll g rs with
      | none => rw [h1, h2] at h; simp at h
      | some ts' =>
        rw [h1, h2] at h
        simp only [Option.some.injEq] at h
        subst h
        obtain ⟨hl, hi⟩ := ih ts' h2
        refine ⟨by simp [hl], ?_⟩
        intro i r' hr
        cases i with
        | zero => simp at hr; subst hr; simp [h1]
        | succ i => simpa using hi i r' (by simpa using hr)

theorem atAll_some (g : Group) (ranks : List Int) :
    (atAll g ranks).isSome ↔ ∀ r ∈ ranks, (g.at r).isSome := by
  induction ranks with
  | nil => simp [atAll]
  | cons r rs ih =>
    unfold atAll
    cases h1 : g.at r with
    | none => simp [h1]
    | some t =>
      cases h2 : atAll g rs with
      | none => rw [h2] at ih; simp [h1]; simpa using ih
      | some ts => rw [h2] at ih; simp [h1]; simpa using ih

theorem rangeUp_spec (stop stride : Int) (hs : 0 < stride) (n : Nat) (rank : Int)
    (h1 : rank + n * stride ≤ stop) (h2 : stop < rank + (n + 1) * stride) :
    rangeUp stop stride rank = (List.range (n + 1)).map (fun (i : Nat) => rank + i * stride) := by
  induction n generalizing rank with
  | zero =>
    rw [rangeUp, dif_pos ⟨by omega, hs⟩, rangeUp, dif_neg (by
      simp only [Int.natCast_zero] at h2; omega)]
    simp
  | succ n ih =>
    have e1 : ((n + 1 : Nat) : Int) * stride = n * stride + stride := by
      rw [Int.natCast_add, Int.add_mul]; simp
    have e2 : (((n + 1 : Nat) : Int) + 1) * stride = n * stride + stride + stride := by
      rw [Int.add_mul, e1]; omega
    have e3 : ((n : Int) + 1) * stride = n * stride + stride := by rw [Int.add_mul]; omega
    have hp : 0 ≤ (n : Int) * stride := Int.mul_nonneg (by omega) (by omega)
    rw [e1] at h1
    rw [e2] at h2
    rw [rangeUp, dif_pos ⟨by omega, hs⟩, ih (rank + stride) (by omega) (by rw [e3]; omega),
      List.range_succ_eq_map (n := n + 1)]
    simp only [List.map_cons, List.map_map]
    congr 1
    · simp
    · apply List.map_congr_left
      intro i _
      simp only [Function.comp, Nat.succ_eq_add_one]
      rw [Int.natCast_add, Int.add_mul]
      simp
      omega

theorem rangeDown_spec (stop stride : Int) (hs : stride < 0) (n : Nat) (rank : Int)
    (h1 : rank + n * stride ≥ stop) (h2 : stop > rank + (n + 1) * stride) :
    rangeDown stop stride rank = (List.range (n + 1)).map (fun (i : Nat) => rank + i * stride) := by
  induction n generalizing rank with
  | zero =>
    rw [rangeDown, dif_pos ⟨by omega, hs⟩, rangeDown, dif_neg (by
      simp only [Int.natCast_zero] at h2; omega)]
    simp
  | succ n ih =>
    have e1 : ((n + 1 : Nat) : Int) * stride = n * stride + stride := by
      rw [Int.natCast_add, Int.add_mul]; simp
    have e2 : (((n + 1 : Nat) : Int) + 1) * stride = n * stride + stride + stride := by
      rw [Int.add_mul, e1]; omega
    have e3 : ((n : Int) + 1) * stride = n * stride + stride := by rw [Int.add_mul]; omega
    have hp : (n : Int) * stride ≤ 0 := Int.mul_nonpos_of_nonneg_of_nonpos (by omega) (by omega)
    rw [e1] at h1
    rw [e2] at h2
    rw [rangeDown, dif_pos ⟨by omega, hs⟩, ih (rank + stride) (by omega) (by rw [e3]; omega),
      List.range_succ_eq_map (n := n + 1)]
    simp only [List.map_cons, List.map_map]
    congr 1
    · simp
    · apply List.map_congr_left
      intro i _
      simp only [Function.comp, Nat.succ_eq_add_one]
      rw [Int.natCast_add, Int.add_mul]
      simp
      omega

/-! ### Split -/

/-- Keys strictly increasing. -/
def KeySorted (m : List (Int × List Nat)) : Prop := m.Pairwise (fun a b => a.1 < b.1)

theorem keyPush_keys (k : Int) (r : Nat) (m : List (Int × List Nat)) (p : Int × List Nat)
    (h : p ∈ keyPush k r m) : p.1 = k ∨ ∃ q ∈ m, q.1 = p.1 := by
  induction m with
  | nil => simp [keyPush] at h; exact Or.inl (by rw [h])
  | cons x m ih =>
    obtain ⟨k', rs⟩ := x
    unfold keyPush at h
    split at h
    · simp only [List.mem_cons] at h
      rcases h with h | h | h
      · exact Or.inl (by rw [h])
      · exact Or.inr ⟨(k', rs), by simp, by rw [h]⟩
      · exact Or.inr ⟨p, by simp [h], rfl⟩
    · split at h
      · simp only [List.mem_cons] at h
        rcases h with h | h
        · exact Or.inr ⟨(k', rs), by simp, by rw [h]⟩
        · rcases ih h with h | ⟨q, hq, e⟩
          · exact Or.inl h
          · exact Or.inr ⟨q, by simp [hq], e⟩
      · simp only [List.mem_cons] at h
        rcases h with h | h
        · exact Or.inr ⟨(k', rs), by simp, by rw [h]⟩
        · exact Or.inr ⟨p, by simp [h], rfl⟩

theorem keyPush_sorted (k : Int) (r : Nat) (m : List (Int × List Nat)) (hm : KeySorted m) :
    KeySorted (keyPush k r m) := by
  induction m with
  | nil => simp [keyPush, KeySorted]
  | cons x m ih =>
    obtain ⟨k', rs⟩ := x
    have hm' := List.pairwise_cons.mp hm
    unfold keyPush
    split
    · rename_i hlt
      refine List.pairwise_cons.mpr ⟨?_, hm⟩
      intro p hp
      simp only [List.mem_cons] at hp
      rcases hp with hp | hp
      · rw [hp]; exact hlt
      · have := hm'.1 p hp; simp only at this ⊢; omega
    · split
      · rename_i hlt
        refine List.pairwise_cons.mpr ⟨?_, ih hm'.2⟩
        intro p hp
        rcases keyPush_keys k r m p hp with e | ⟨q, hq, e⟩
        · simp only; omega
        · have := hm'.1 q hq; simp only at this ⊢; omega
      · refine List.pairwise_cons.mpr ⟨?_, hm'.2⟩
        intro p hp
        exact hm'.1 p hp

/-- Which (key, rank) pairs are stored. -/
def Has (m : List (Int × List Nat)) (k : Int) (r : Nat) : Prop := ∃ p ∈ m, p.1 = k ∧ r ∈ p.2

theorem keyPush_has (k : Int) (r : Nat) (m : List (Int × List Nat)) (k1 : Int) (r1 : Nat) :
    Has (keyPush k r m) k1 r1 ↔ Has m k1 r1 ∨ (k1 = k ∧ r1 = r) := by
  induction m with
  | nil =>
    simp only [keyPush, Has, List.mem_singleton]
    constructor
    · rintro ⟨p, rfl, rfl, h⟩
      simp at h
      exact Or.inr ⟨rfl, h⟩
    · rintro (⟨p, hp, _⟩ | ⟨rfl, rfl⟩)
      · simp at hp
      · exact ⟨_, rfl, rfl, by simp⟩
  | cons x m ih =>
    obtain ⟨k', rs⟩ := x
    have hc : ∀ (y : Int × List Nat) (l : List (Int × List Nat)),
        Has (y :: l) k1 r1 ↔ (y.1 = k1 ∧ r1 ∈ y.2) ∨ Has l k1 r1 := by
      intro y l
      simp [Has]
    unfold keyPush
    split
    · rw [hc, hc]
      simp only [List.mem_singleton]
      constructor
      · rintro (⟨h1, h2⟩ | h)
        · exact Or.inr ⟨h1.symm, h2⟩
        · exact Or.inl h
      · rintro (h | ⟨h1, h2⟩)
        · exact Or.inr h
        · exact Or.inl ⟨h1.symm, h2⟩
    · split
      · rw [hc, hc, ih]
        constructor
        · rintro (h | h | h)
          · exact Or.inl (Or.inl h)
          · exact Or.inl (Or.inr h)
          · exact Or.inr h
        · rintro ((h | h) | h)
          · exact Or.inl h
          · exact Or.inr (Or.inl h)
          · exact Or.inr (Or.inr h)
      · have hk : k' = k := by omega
        rw [hc, hc]
        simp only [List.mem_append, List.mem_singleton]
        subst hk
        constructor
        · rintro (⟨h1, h2 | h2⟩ | h)
          · exact Or.inl (Or.inl ⟨h1, h2⟩)
          · exact Or.inr ⟨h1.symm, h2⟩
          · exact Or.inl (Or.inr h)
        · rintro ((⟨h1, h2⟩ | h) | ⟨h1, h2⟩)
          · exact Or.inl ⟨h1, Or.inl h2⟩
          · exact Or.inr h
          · exact Or.inl ⟨h1.symm, Or.inr h2⟩

/-- Every stored list is increasing and below `n`. -/
def Incr (m : List (Int × List Nat)) (n : Nat) : Prop :=
  ∀ p ∈ m, p.2.Pairwise (· < ·) ∧ ∀ r ∈ p.2, r < n

theorem keyPush_incr (k : Int) (r : Nat) (m : List (Int × List Nat)) (h : Incr m r) :
    Incr (keyPush k r m) (r + 1) := by
  have hold : ∀ p ∈ m, p.2.Pairwise (· < ·) ∧ ∀ x ∈ p.2, x < r + 1 := by
    intro p hp
    exact ⟨(h p hp).1, fun x hx => Nat.lt_succ_of_lt ((h p hp).2 x hx)⟩
  have hnew : ([r] : List Nat).Pairwise (· < ·) ∧ ∀ x ∈ [r], x < r + 1 := by simp
  induction m with
  | nil => intro p hp; simp [keyPush] at hp; subst hp; exact hnew
  | cons x m ih =>
    obtain ⟨k', rs⟩ := x
    intro p hp
    unfold keyPush at hp
    split at hp
    · simp only [List.mem_cons] at hp
      rcases hp with rfl | hp
      · exact hnew
      · exact hold p (by simpa using hp)
    · split at hp
      · simp only [List.mem_cons] at hp
        rcases hp with rfl | hp
        · exact hold _ (by simp)
        · exact ih (fun q hq => h q (by simp [hq])) (fun q hq => hold q (by simp [hq])) p hp
      · simp only [List.mem_cons] at hp
        rcases hp with rfl | hp
        · have := h (k', rs) (by simp)
          refine ⟨?_, ?_⟩
          · rw [List.pairwise_append]
            refine ⟨this.1, by simp, ?_⟩
            intro a ha b hb
            simp at hb
            subst hb
            exact this.2 a ha
          · intro x hx
            simp at hx
            rcases hx with hx | rfl
            · exact Nat.lt_succ_of_lt (this.2 x hx)
            · omega
        · exact hold p (by simp [hp])

theorem gatherKeys_spec (c : Int) (tbl : List Entry) (n : Nat) (m : List (Int × List Nat))
    (hs : KeySorted m) (hi : Incr m n) :
    KeySorted (gatherKeys c n m tbl) ∧ Incr (gatherKeys c n m tbl) (n + tbl.length) ∧
    ∀ (k : Int) (r : Nat), Has (gatherKeys c n m tbl) k r ↔
      Has m k r ∨ ∃ (i : Nat) (e : Entry), tbl[i]? = some e ∧ r = n + i ∧ e.key = k ∧ 0 ≤ e.color ∧ e.color = c := by
  induction tbl generalizing n m with
  | nil => exact ⟨hs, by simpa [gatherKeys] using hi, fun k r => by simp [gatherKeys]⟩
  | cons e tbl ih =>
    unfold gatherKeys
    by_cases hc : e.color ≥ 0 ∧ e.color = c
    · rw [if_pos hc]
      obtain ⟨h1, h2, h3⟩ := ih (n + 1) (keyPush e.key n m) (keyPush_sorted _ _ _ hs) (keyPush_incr _ _ _ hi)
      refine ⟨h1, ?_, ?_⟩
      · intro p hp
        refine ⟨(h2 p hp).1, fun r hr => ?_⟩
        have := (h2 p hp).2 r hr
        simp only [List.length_cons]
        omega
      · intro k r
        rw [h3, keyPush_has]
        constructor
        · rintro ((h | ⟨rfl, rfl⟩) | ⟨i, e', hi', hr, hk⟩)
          · exact Or.inl h
          · exact Or.inr ⟨0, e, by simp, by omega, rfl, hc.1, hc.2⟩
          · exact Or.inr ⟨i + 1, e', by simpa using hi', by omega, hk⟩
        · rintro (h | ⟨i, e', hi', hr, hk⟩)
          · exact Or.inl (Or.inl h)
          · cases i with
            | zero =>
              simp at hi'
              subst hi'
              exact Or.inl (Or.inr ⟨hk.1.symm, by omega⟩)
            | succ i => exact Or.inr ⟨i, e', by simpa using hi', by omega, hk⟩
    · rw [if_neg hc]
      obtain ⟨h1, h2, h3⟩ := ih (n + 1) m hs (fun p hp => ⟨(hi p hp).1, fun r hr => Nat.lt_succ_of_lt ((hi p hp).2 r hr)⟩)
      refine ⟨h1, ?_, ?_⟩
      · intro p hp
        refine ⟨(h2 p hp).1, fun r hr => ?_⟩
        have := (h2 p hp).2 r hr
        simp only [List.length_cons]
        omega
      · intro k r
        rw [h3]
        constructor
        · rintro (h | ⟨i, e', hi', hr, hk⟩)
          · exact Or.inl h
          · exact Or.inr ⟨i + 1, e', by simpa using hi', by omega, hk⟩
        · rintro (h | ⟨i, e', hi', hr, hk⟩)
          · exact Or.inl h
          · cases i with
            | zero =>
              simp at hi'
              subst hi'
              exact absurd ⟨hk.2.1, hk.2.2⟩ hc
            | succ i => exact Or.inr ⟨i, e', by simpa using hi', by omega, hk⟩

theorem insertRank_perm (x : Nat) (l : List Nat) : (insertRank x l).Perm (x :: l) := by
  induction l with
  | nil => exact List.Perm.refl _
  | cons y l ih =>
    unfold insertRank
    split
    · exact List.Perm.refl _
    · exact (List.Perm.cons y ih).trans (List.Perm.swap x y l)

theorem sortLe_perm (l : List Nat) : (sortRanks l).Perm l := by
  induction l with
  | nil => exact List.Perm.refl _
  | cons x l ih => exact (insertRank_perm x _).trans (List.Perm.cons x ih)

theorem sort_increasing (l : List Nat) (h : l.Pairwise (· < ·)) : sortRanks l = l := by
  induction l with
  | nil => rfl
  | cons x l ih =>
    obtain ⟨h1, h2⟩ := List.pairwise_cons.mp h
    unfold sortRanks
    rw [ih h2]
    cases l with
    | nil => rfl
    | cons y l =>
      have := h1 y (by simp)
      simp [insertRank]
      omega

theorem maxId_spec (tbl : List Entry) (c : Int) :
    c ≤ maxId c tbl ∧ (∀ e ∈ tbl, e.nextId ≤ maxId c tbl) ∧
    (maxId c tbl = c ∨ ∃ e ∈ tbl, maxId c tbl = e.nextId) := by
  induction tbl generalizing c with
  | nil => exact ⟨by simp [maxId], by simp, Or.inl rfl⟩
  | cons e tbl ih =>
    unfold maxId
    obtain ⟨h1, h2, h3⟩ := ih (if e.nextId > c then e.nextId else c)
    have h4 : c ≤ (if e.nextId > c then e.nextId else c) ∧ e.nextId ≤ (if e.nextId > c then e.nextId else c) := by
      split <;> constructor <;> omega
    refine ⟨Int.le_trans h4.1 h1, ?_, ?_⟩
    · intro x hx
      simp only [List.mem_cons] at hx
      rcases hx with rfl | hx
      · exact Int.le_trans h4.2 h1
      · exact h2 x hx
    · rcases h3 with h3 | ⟨x, hx, h3⟩
      · by_cases hc : e.nextId > c
        · exact Or.inr ⟨e, by simp, by rw [h3, if_pos hc]⟩
        · rw [if_neg hc] at h3
          exact Or.inl (by rw [if_neg hc]; exact h3)
      · exact Or.inr ⟨x, by simp [hx], h3⟩

/-- The members computed for a color. -/
def membersOf (tbl : List Entry) (c : Int) : List Nat :=
  ((gatherKeys c 0 [] tbl).map (fun p => sortRanks p.2)).flatten

theorem membersOf_mem (tbl : List Entry) (c : Int) (hc : 0 ≤ c) (r : Nat) :
    r ∈ membersOf tbl c ↔ ∃ e, tbl[r]? = some e ∧ e.color = c := by
  obtain ⟨_, _, h3⟩ := gatherKeys_spec c tbl 0 [] (by simp [KeySorted]) (by simp [Incr])
  unfold membersOf
  simp only [List.mem_flatten, List.mem_map]
  constructor
  · rintro ⟨_, ⟨p, hp, rfl⟩, hr⟩
    rw [(sortLe_perm _).mem_iff] at hr
    rcases (h3 p.1 r).mp ⟨p, hp, rfl, hr⟩ with ⟨q, hq, _⟩ | ⟨i, e, hi, hri, _, _, hc'⟩
    · simp at hq
    · have : r = i := by omega
      subst this
      exact ⟨e, hi, hc'⟩
  · rintro ⟨e, he, hc'⟩
    obtain ⟨p, hp, _, hr⟩ := (h3 e.key r).mpr (Or.inr ⟨r, e, he, by omega, rfl, by omega, hc'⟩)
    exact ⟨_, ⟨p, hp, rfl⟩, (sortLe_perm _).mem_iff.mpr hr⟩

/-- Order by key, then by parent rank. -/
def Before (tbl : List Entry) (a b : Nat) : Prop :=
  ∃ ea eb, tbl[a]? = some ea ∧ tbl[b]? = some eb ∧ (ea.key < eb.key ∨ (ea.key = eb.key ∧ a < b))

theorem membersOf_sorted (tbl : List Entry) (c : Int) :
    (membersOf tbl c).Pairwise (Before tbl) := by
  obtain ⟨h1, h2, h3⟩ := gatherKeys_spec c tbl 0 [] (by simp [KeySorted]) (by simp [Incr])
  have hkey : ∀ p ∈ gatherKeys c 0 [] tbl, ∀ r ∈ p.2, ∃ e, tbl[r]? = some e ∧ e.key = p.1 := by
    intro p hp r hr
    rcases (h3 p.1 r).mp ⟨p, hp, rfl, hr⟩ with ⟨q, hq, _⟩ | ⟨i, e, hi, hri, hk, _⟩
    · simp at hq
    · have : r = i := by omega
      subst this
      exact ⟨e, hi, hk⟩
  unfold membersOf
  have : (gatherKeys c 0 [] tbl).map (fun p => sortRanks p.2) = (gatherKeys c 0 [] tbl).map (·.2) := by
    apply List.map_congr_left
    intro p hp
    exact sort_increasing _ (h2 p hp).1
  rw [this, List.pairwise_flatten]
  constructor
  · intro l hl
    obtain ⟨p, hp, rfl⟩ := List.mem_map.mp hl
    refine List.Pairwise.imp_of_mem ?_ (h2 p hp).1
    intro a b ha hb hab
    obtain ⟨ea, h4, h5⟩ := hkey p hp a ha
    obtain ⟨eb, h6, h7⟩ := hkey p hp b hb
    exact ⟨ea, eb, h4, h6, Or.inr ⟨by omega, hab⟩⟩
  · rw [List.pairwise_map]
    refine List.Pairwise.imp_of_mem ?_ h1
    intro p q hp hq hpq a ha b hb
    obtain ⟨ea, h4, h5⟩ := hkey p hp a ha
    obtain ⟨eb, h6, h7⟩ := hkey q hq b hb
    exact ⟨ea, eb, h4, h6, Or.inl (by omega)⟩

theorem commSplit_some (tbl : List Entry) (me : Nat) (e : Entry) (h : tbl[me]? = some e)
    (hc : 0 ≤ e.color) :
    commSplit tbl me = some ⟨maxId (-1) tbl, membersOf tbl e.color,
      (membersOf tbl e.color).idxOf? me, maxId (-1) tbl + 1⟩ := by
  unfold commSplit
  rw [h]
  simp only
  rw [if_neg (by omega)]
  rfl

/-! ### Ids -/

theorem foldl_max_ge (l : List Nat) (a : Nat) : a ≤ l.foldl max a ∧ ∀ x ∈ l, x ≤ l.foldl max a := by
  induction l generalizing a with
  | nil => simp
  | cons y l ih =>
    obtain ⟨h1, h2⟩ := ih (max a y)
    simp only [List.foldl_cons]
    refine ⟨by omega, ?_⟩
    intro x hx
    simp only [List.mem_cons] at hx
    rcases hx with rfl | hx
    · omega
    · exact h2 x hx

theorem agree_ge (next : Nat → Nat) (callers : List Nat) (t : Nat) (h : t ∈ callers) :
    next t ≤ agree next callers :=
  (foldl_max_ge (callers.map next) 0).2 _ (List.mem_map_of_mem h)

/-- Ids in use are below every member's counter, and shared members imply different ids. -/
def IdsOk (s : Ids) : Prop :=
  (∀ c ∈ s.comms, ∀ t ∈ c.2, c.1 < s.next t) ∧
  s.comms.Pairwise (fun a b => ∀ t, t ∈ a.2 → t ∈ b.2 → a.1 ≠ b.1)

theorem IdsOk.append {s : Ids} (h : IdsOk s) (next' : Nat → Nat) (new : List (Nat × List Nat))
    (hmono : ∀ t, s.next t ≤ next' t)
    (hnew : ∀ c ∈ new, ∀ t ∈ c.2, c.1 < next' t ∧ s.next t ≤ c.1)
    (hdis : new.Pairwise (fun a b => ∀ t, t ∈ a.2 → t ∈ b.2 → a.1 ≠ b.1)) :
    IdsOk { next := next', comms := s.comms ++ new } := by
  refine ⟨?_, ?_⟩
  · intro c hc t ht
    simp only [List.mem_append] at hc
    rcases hc with hc | hc
    · exact Nat.lt_of_lt_of_le (h.1 c hc t ht) (hmono t)
    · exact (hnew c hc t ht).1
  · refine List.pairwise_append.mpr ⟨h.2, hdis, ?_⟩
    intro a ha b hb t hta htb
    have h1 := h.1 a ha t hta
    have h2 := (hnew b hb t htb).2
    omega

theorem eraseDups_nodup (l : List Int) : l.eraseDups.Pairwise (· ≠ ·) := by
  generalize hn : l.length = n
  induction n using Nat.strongRecOn generalizing l with
  | _ n ih =>
    cases l with
    | nil => simp [List.eraseDups_nil]
    | cons a l =>
      rw [List.eraseDups_cons, List.pairwise_cons]
      constructor
      · intro b hb
        have := List.mem_eraseDups.mp hb
        simp at this
        exact fun e => this.2 e.symm
      · exact ih _ (by
          have := List.length_filter_le (fun b => !b == a) l
          simp only [List.length_cons] at hn
          omega) _ rfl

theorem IdsOk.step {s : Ids} (h : IdsOk s) (op : CommOp) : IdsOk (s.step op) := by
  cases op with
  | create callers members =>
    refine h.append _ _ ?_ ?_ (by simp)
    · intro t
      by_cases ht : t ∈ callers
      · have := agree_ge s.next callers t ht
        simp only [if_pos ht]
        omega
      · simp only [if_neg ht]
        exact Nat.le_refl _
    · intro c hc t ht
      simp only [List.mem_singleton] at hc
      subst hc
      simp only [List.mem_filter, decide_eq_true_eq] at ht
      have := agree_ge s.next callers t ht.2
      simp only [if_pos ht.2]
      omega
  | createGroup members =>
    refine h.append _ _ ?_ ?_ (by simp)
    · intro t
      by_cases ht : t ∈ members
      · have := agree_ge s.next members t ht
        simp only [if_pos ht]
        omega
      · simp only [if_neg ht]
        exact Nat.le_refl _
    · intro c hc t ht
      simp only [List.mem_singleton] at hc
      subst hc
      have := agree_ge s.next members t ht
      simp only [if_pos ht]
      omega
  | split callers color =>
    refine h.append _ _ ?_ ?_ ?_
    · intro t
      by_cases ht : t ∈ callers ∧ 0 ≤ color t
      · have := agree_ge s.next callers t ht.1
        simp only [if_pos ht]
        omega
      · simp only [if_neg ht]
        exact Nat.le_refl _
    · intro c hc t ht
      obtain ⟨x, hx, rfl⟩ := List.mem_map.mp hc
      simp only [List.mem_filter, decide_eq_true_eq] at ht
      have hx' := List.mem_eraseDups.mp hx
      simp only [List.mem_filter, decide_eq_true_eq] at hx'
      have := agree_ge s.next callers t ht.1
      simp only [if_pos (show t ∈ callers ∧ 0 ≤ color t from ⟨ht.1, by omega⟩)]
      omega
    · rw [List.pairwise_map]
      refine (eraseDups_nodup _).imp ?_
      intro a b hab t hta htb
      simp only [List.mem_filter, decide_eq_true_eq] at hta htb
      omega

/-! ### Cartesian grids -/

theorem setCoords_length (prev r : Nat) (ds : List Nat) : (setCoords prev r ds).length = ds.length := by
  induction ds generalizing prev with
  | nil => rfl
  | cons d ds ih => simp [setCoords, ih]

/-- Product of the extents. -/
def cells (ds : List Nat) : Nat := ds.foldr (· * ·) 1

theorem cartRank_setCoords (ds : List Nat) (prev r : Nat) (hp : 0 < prev) :
    cartRank prev ds (setCoords prev r ds) = prev * ((r / prev) % cells ds) := by
  induction ds generalizing prev with
  | nil => simp [setCoords, cartRank, cells, Nat.mod_one]
  | cons d ds ih =>
    simp only [setCoords, cartRank, cells, List.foldr_cons]
    rcases Nat.eq_zero_or_pos d with hd | hd
    · subst hd
      simp only [Nat.mul_zero, Nat.mod_zero, Nat.zero_mul]
      have : ∀ (ds : List Nat) (cs : List Nat), cartRank 0 ds cs = 0 := by
        intro ds
        induction ds with
        | nil => intro cs; cases cs <;> rfl
        | cons d ds ih => intro cs; cases cs <;> simp [cartRank, ih]
      rw [this, Nat.mul_comm]
      rfl
    · rw [ih (prev * d) (Nat.mul_pos hp hd), Nat.mod_mul, ← Nat.div_div_eq_div_mul, Nat.mul_add]
      simp only [cells]
      rw [Nat.mul_comm prev (r / prev % d), Nat.mul_assoc]

theorem setCoords_cartRank (ds cs : List Nat) (prev x : Nat) (hp : 0 < prev) (hx : x < prev)
    (hl : cs.length = ds.length) (hb : ∀ (i : Nat) (c d : Nat), cs[i]? = some c → ds[i]? = some d → c < d) :
    setCoords prev (x + cartRank prev ds cs) ds = cs := by
  induction ds generalizing cs prev x with
  | nil => simp at hl; subst hl; rfl
  | cons d ds ih =>
    cases cs with
    | nil => simp at hl
    | cons c cs =>
      have hcd : c < d := hb 0 c d (by simp) (by simp)
      simp only [setCoords, cartRank]
      have e : ∀ (ds cs : List Nat) (p : Nat), ∃ k, cartRank p ds cs = p * k := by
        intro ds
        induction ds with
        | nil => intro cs p; exact ⟨0, by cases cs <;> simp [cartRank]⟩
        | cons d ds ih =>
          intro cs p
          cases cs with
          | nil => exact ⟨0, by simp [cartRank]⟩
          | cons c cs =>
            obtain ⟨k, hk⟩ := ih cs (p * d)
            exact ⟨c + d * k, by simp only [cartRank, hk]; rw [Nat.mul_add, Nat.mul_comm c p, Nat.mul_assoc]⟩
      have hd : 0 < d := by omega
      congr 1
      · obtain ⟨k, hk⟩ := e ds cs (prev * d)
        rw [hk]
        have : x + (c * prev + prev * d * k) = x + prev * (c + d * k) := by
          rw [Nat.mul_add, Nat.mul_comm c prev, Nat.mul_assoc]
        rw [this, Nat.add_mul_div_left _ _ hp, Nat.div_eq_of_lt hx, Nat.zero_add,
          Nat.add_mul_mod_self_left, Nat.mod_eq_of_lt hcd]
      · rw [← Nat.add_assoc]
        apply ih
        · exact Nat.mul_pos hp hd
        · have : (c + 1) * prev ≤ d * prev := Nat.mul_le_mul_right _ hcd
          rw [Nat.add_mul, Nat.one_mul] at this
          rw [Nat.mul_comm prev d]
          omega
        · simpa using hl
        · intro i c' d' h1 h2
          exact hb (i + 1) c' d' (by simpa using h1) (by simpa using h2)

theorem cartRank_lt (ds cs : List Nat) (prev : Nat) (hp : 0 < prev)
    (hl : cs.length = ds.length) (hb : ∀ (i : Nat) (c d : Nat), cs[i]? = some c → ds[i]? = some d → c < d) :
    cartRank prev ds cs + prev ≤ prev * cells ds := by
  induction ds generalizing cs prev with
  | nil => simp at hl; subst hl; simp [cartRank, cells]
  | cons d ds ih =>
    cases cs with
    | nil => simp at hl
    | cons c cs =>
      have hcd : c < d := hb 0 c d (by simp) (by simp)
      have := ih cs (prev * d) (Nat.mul_pos hp (by omega)) (by simpa using hl)
        (fun i c' d' h1 h2 => hb (i + 1) c' d' (by simpa using h1) (by simpa using h2))
      simp only [cartRank, cells, List.foldr_cons]
      simp only [cells] at this
      have h2 : (c + 1) * prev ≤ d * prev := Nat.mul_le_mul_right _ hcd
      rw [Nat.add_mul, Nat.one_mul, Nat.mul_comm d prev] at h2
      rw [← Nat.mul_assoc]
      omega

theorem setCoords_lt (ds : List Nat) (prev r : Nat) (hd : ∀ d ∈ ds, 0 < d) :
    ∀ (i : Nat) (c d : Nat), (setCoords prev r ds)[i]? = some c → ds[i]? = some d → c < d := by
  induction ds generalizing prev with
  | nil => simp
  | cons d ds ih =>
    intro i c d' h1 h2
    cases i with
    | zero =>
      simp [setCoords] at h1 h2
      subst h1 h2
      exact Nat.mod_lt _ (hd d (by simp))
    | succ i =>
      simp [setCoords] at h1 h2
      exact ih (prev * d) (fun x hx => hd x (by simp [hx])) i c d' h1 h2

theorem cartRankI_ofNat (ds cs : List Nat) (prev : Nat) :
    cartRankI prev ds (cs.map Int.ofNat) = cartRank prev ds cs := by
  induction ds generalizing cs prev with
  | nil => cases cs <;> rfl
  | cons d ds ih =>
    cases cs with
    | nil => rfl
    | cons c cs =>
      simp only [List.map_cons, cartRankI, cartRank, Int.natCast_add, Int.natCast_mul]
      rw [← Int.natCast_mul, ih]
      simp

end SST.Mpi.Comm
