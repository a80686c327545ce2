import Verif.Serial.CommBuffer
namespace SST.Serial.Comm

/-! ### growing and searching -/

theorem grow_ge (fuel : Nat) : ∀ sz n, n ≤ sz * 8 ^ fuel → n ≤ grow fuel sz n := by
  induction fuel with
  | zero => intro sz n h; simpa [grow] using h
  | succ f ih =>
    intro sz n h
    simp only [grow]
    split
    · exact ih _ _ (by rw [Nat.mul_assoc, ← Nat.pow_succ']; exact h)
    · omega

theorem le_grow (fuel : Nat) : ∀ sz n, sz ≤ grow fuel sz n := by
  induction fuel with
  | zero => intro sz n; simp [grow]
  | succ f ih =>
    intro sz n
    simp only [grow]
    split
    · have := ih (sz * 8) n; omega
    · omega

theorem nextSize_ge {bk : Nat} (hb : 0 < bk) {s : St} (hpos : ∀ b ∈ s.backups, 0 < b.max) (n : Nat) :
    n ≤ nextSize bk s n ∧ 0 < nextSize bk s n := by
  unfold nextSize
  have h8 : ∀ first, 0 < first → n ≤ grow n first n ∧ 0 < grow n first n := by
    intro first hf
    have h1 : n < 8 ^ n := Nat.lt_pow_self (by decide)
    have h2 : 1 * 8 ^ n ≤ first * 8 ^ n := Nat.mul_le_mul_right _ hf
    exact ⟨grow_ge n first n (by omega), Nat.lt_of_lt_of_le hf (le_grow n first n)⟩
  cases h : s.backups.getLast? with
  | none => exact h8 _ hb
  | some b =>
    have := hpos b (List.mem_of_getLast? h)
    exact h8 _ (by show 0 < b.max * 8; omega)

theorem search_some {bs : List Backup} {n : Nat} : ∀ {k0 k : Nat}, search bs n k0 = some k →
    ∃ (i : Nat) (b : Backup), k = k0 + i ∧ bs[i]? = some b ∧ n < b.max ∧ ∀ (j : Nat) (b' : Backup), j < i → bs[j]? = some b' → b'.max ≤ n := by
  induction bs with
  | nil => intro k0 k h; simp [search] at h
  | cons b bs ih =>
    intro k0 k h
    simp only [search] at h
    split at h
    · injection h with h
      exact ⟨0, b, by omega, rfl, by assumption, fun j b' hj => by omega⟩
    · obtain ⟨i, c, h1, h2, h3, h4⟩ := ih h
      refine ⟨i + 1, c, by omega, by simpa using h2, h3, ?_⟩
      intro j b' hj hb
      cases j with
      | zero => simp at hb; subst hb; omega
      | succ j => exact h4 j b' (by omega) (by simpa using hb)

theorem search_none {bs : List Backup} {n : Nat} : ∀ {k0 : Nat}, search bs n k0 = none → ∀ b ∈ bs, b.max ≤ n := by
  induction bs with
  | nil => intro k0 _ b hb; cases hb
  | cons b bs ih =>
    intro k0 h c hc
    simp only [search] at h
    split at h
    · cases h
    · cases hc with
      | head => omega
      | tail _ hc => exact ih h c hc

/-! ### memory -/

theorem store_in {mem : Nat → Byte} {p : Nat} {d : List Byte} {o : Nat} (h : o < d.length) :
    store mem p d (p + o) = d[o] := by
  unfold store
  rw [if_pos (by omega), Nat.add_sub_cancel_left, List.getD_eq_getElem?_getD, List.getElem?_eq_getElem h]
  rfl

theorem store_out {mem : Nat → Byte} {p : Nat} {d : List Byte} {i : Nat} (h : i < p ∨ p + d.length ≤ i) :
    store mem p d i = mem i := by
  unfold store
  rw [if_neg (by omega)]

/-- the bytes of a reservation are in `mem` -/
def Holds (mem : Nat → Byte) (r : Res) : Prop := ∀ o (h : o < r.data.length), mem (r.start + o) = r.data[o]

/-! ### the merge loop -/

theorem copyLoop_below (bs : List Backup) : ∀ (f : Nat → Byte) (lo hi : Nat) (src : Nat → Byte) (x : Nat), x < lo →
    copyLoop f lo hi src bs x = f x := by
  induction bs with
  | nil => intro f lo hi src x _; rfl
  | cons b bs ih =>
    intro f lo hi src x h
    simp only [copyLoop]
    rw [ih _ _ _ _ _ (by omega)]
    unfold copyRange
    rw [if_neg (by omega)]

theorem copyLoop_first (b : Backup) (bs : List Backup) (f : Nat → Byte) (lo hi : Nat) (src : Nat → Byte) (x : Nat)
    (h1 : lo ≤ x) (h2 : x < hi) : copyLoop f lo hi src (b :: bs) x = src x := by
  simp only [copyLoop]
  rw [copyLoop_below _ _ _ _ _ _ (by omega)]
  unfold copyRange
  rw [if_pos ⟨h1, h2⟩]

theorem copyLoop_mid (bs : List Backup) : ∀ (f : Nat → Byte) (lo hi : Nat) (src : Nat → Byte) (x k : Nat) (b : Backup),
    lo ≤ x → hi ≤ x → bs[k]? = some b → k + 1 < bs.length →
    (∀ (j : Nat) (b' : Backup), j < k → bs[j]? = some b' → b'.filled ≤ x) → x < b.filled →
    copyLoop f lo hi src bs x = b.mem x := by
  induction bs with
  | nil => intro f lo hi src x k b _ _ hk; simp at hk
  | cons c bs ih =>
    intro f lo hi src x k b h1 h2 hk hl hj hx
    simp only [copyLoop]
    cases k with
    | zero =>
      simp at hk; subst hk
      cases bs with
      | nil => simp at hl
      | cons d ds => exact copyLoop_first d ds _ _ _ _ _ (by omega) hx
    | succ k =>
      refine ih _ _ _ _ x k b (by omega) ?_ (by simpa using hk) (by simpa using hl) ?_ hx
      · exact hj 0 c (by omega) rfl
      · intro j b' hjk hb
        exact hj (j + 1) b' (by omega) (by simpa using hb)

theorem copyLoop_above (bs : List Backup) : ∀ (f : Nat → Byte) (lo hi : Nat) (src : Nat → Byte) (x : Nat),
    hi ≤ x → (∀ (j : Nat) (b' : Backup), j + 1 < bs.length → bs[j]? = some b' → b'.filled ≤ x) →
    copyLoop f lo hi src bs x = f x := by
  induction bs with
  | nil => intro f lo hi src x _ _; rfl
  | cons c bs ih =>
    intro f lo hi src x h1 hj
    simp only [copyLoop]
    have hf : copyRange f src lo hi x = f x := by unfold copyRange; rw [if_neg (by omega)]
    cases bs with
    | nil => simp [copyLoop, hf]
    | cons d ds =>
      rw [ih _ _ _ _ x ?_ ?_, hf]
      · exact hj 0 c (by simp) rfl
      · intro j b' hl hb
        exact hj (j + 1) b' (by simpa using hl) (by simpa using hb)

/-! ### the invariant -/

/-- reservations follow each other without gaps from `p` to `e` -/
def Contig : Nat → List Res → Nat → Prop
  | p, [], e => p = e
  | p, r :: rs, e => r.start = p ∧ 0 < r.data.length ∧ Contig (p + r.data.length) rs e

theorem Contig.append {rs : List Res} {r : Res} : ∀ {p e : Nat}, Contig p rs e → r.start = e → 0 < r.data.length →
    Contig p (rs ++ [r]) (e + r.data.length) := by
  induction rs with
  | nil => intro p e h h1 h2; simp only [Contig] at h; subst h; exact ⟨h1, h2, rfl⟩
  | cons a rs ih => intro p e h h1 h2; exact ⟨h.1, h.2.1, ih h.2.2 h1 h2⟩

theorem Contig.set {rs : List Res} {i : Nat} {r r' : Res} : ∀ {p e : Nat}, Contig p rs e → rs[i]? = some r →
    r'.start = r.start → r'.data = r.data → Contig p (rs.set i r') e := by
  induction rs generalizing i with
  | nil => intro p e h hi; simp at hi
  | cons a rs ih =>
    intro p e h hi h1 h2
    cases i with
    | zero =>
      simp at hi; subst hi
      simp only [List.set_cons_zero, Contig, h1, h2]
      exact h
    | succ i =>
      simp only [List.set_cons_succ, Contig]
      exact ⟨h.1, h.2.1, ih h.2.2 (by simpa using hi) h1 h2⟩

theorem Contig.bounds {rs : List Res} : ∀ {p e i : Nat} {r : Res}, Contig p rs e → rs[i]? = some r →
    p ≤ r.start ∧ 0 < r.data.length ∧ r.stop ≤ e := by
  induction rs with
  | nil => intro p e i r _ hi; simp at hi
  | cons a rs ih =>
    intro p e i r h hi
    have hle : ∀ {rs : List Res} {p e : Nat}, Contig p rs e → p ≤ e := by
      intro rs
      induction rs with
      | nil => intro p e h; exact Nat.le_of_eq h
      | cons a rs ih => intro p e h; have := ih h.2.2; omega
    cases i with
    | zero =>
      simp at hi; subst hi
      have := hle h.2.2
      have h1 := h.1
      refine ⟨by omega, h.2.1, ?_⟩
      unfold Res.stop; omega
    | succ i =>
      have := ih h.2.2 (by simpa using hi)
      omega

theorem Contig.ordered {rs : List Res} : ∀ {p e i j : Nat} {r r' : Res}, Contig p rs e → rs[i]? = some r →
    rs[j]? = some r' → i < j → r.stop ≤ r'.start := by
  induction rs with
  | nil => intro p e i j r r' _ hi; simp at hi
  | cons a rs ih =>
    intro p e i j r r' h hi hj hij
    cases j with
    | zero => omega
    | succ j =>
      cases i with
      | zero =>
        simp at hi; subst hi
        have := h.2.2.bounds (show rs[j]? = some r' by simpa using hj)
        have h1 := h.1
        unfold Res.stop; omega
      | succ i => exact ih h.2.2 (by simpa using hi) (by simpa using hj) (by omega)

theorem Contig.crossing {rs : List Res} {a : Nat} : ∀ {p e i : Nat} {r : Res}, Contig p rs e → rs[i]? = some r →
    p ≤ a → a < r.stop → ∃ (j : Nat) (c : Res), rs[j]? = some c ∧ c.start ≤ a ∧ a < c.stop := by
  induction rs with
  | nil => intro p e i r _ hi; simp at hi
  | cons b rs ih =>
    intro p e i r h hi hp ha
    by_cases hb : a < b.stop
    · exact ⟨0, b, rfl, by have := h.1; omega, hb⟩
    · cases i with
      | zero => simp at hi; subst hi; omega
      | succ i =>
        have h1 := h.1
        obtain ⟨j, c, h2, h3, h4⟩ := ih h.2.2 (show rs[i]? = some r by simpa using hi)
          (by unfold Res.stop at hb; omega) ha
        exact ⟨j + 1, c, by simpa using h2, h3, h4⟩

theorem Contig.content {rs : List Res} {m : Nat → Byte} : ∀ {p e : Nat}, Contig p rs e →
    (∀ (i : Nat) (r : Res), rs[i]? = some r → Holds m r) →
    (List.range (e - p)).map (fun i => m (p + i)) = (rs.map Res.data).flatten := by
  induction rs with
  | nil => intro p e h _; simp only [Contig] at h; subst h; simp
  | cons a rs ih =>
    intro p e h hm
    have hle : ∀ {rs : List Res} {p e : Nat}, Contig p rs e → p ≤ e := by
      intro rs
      induction rs with
      | nil => intro p e h; exact Nat.le_of_eq h
      | cons a rs ih => intro p e h; have := ih h.2.2; omega
    have hl := hle h.2.2
    rw [show e - p = a.data.length + (e - (p + a.data.length)) by omega, List.range_add, List.map_append,
      List.map_cons, List.flatten_cons]
    congr 1
    · have h0 := hm 0 a rfl
      apply List.ext_getElem
      · simp
      · intro i h1 h2
        simp only [List.getElem_map, List.getElem_range]
        have := h0 i h2
        rw [h.1] at this
        exact this
    · rw [← ih h.2.2 (fun i r hi => hm (i + 1) r (by simpa using hi)), List.map_map]
      apply List.map_congr_left
      intro i _
      simp only [Function.comp]
      congr 1; omega

/-- Invariant of reservations in the buffer and its backups. -/
structure Inv (s : St) : Prop where
  contig : Contig 0 s.res s.bytes
  main : ∀ (i : Nat) (r : Res), s.res[i]? = some r → r.place = .main → r.stop ≤ s.alloc
  back : ∀ (i : Nat) (r : Res) (k : Nat), s.res[i]? = some r → r.place = .backup k → s.alloc < r.stop ∧
    (∃ b : Backup, s.backups[k]? = some b ∧ r.stop ≤ b.max ∧ r.stop ≤ b.filled) ∧
    ∀ (j : Nat) (b' : Backup), j < k → s.backups[j]? = some b' → b'.max ≤ r.stop
  full : ∀ (k : Nat) (b : Backup), s.backups[k]? = some b → b.filled ≤ b.max ∧ 0 < b.max ∧
    ∃ (i : Nat) (r : Res), s.res[i]? = some r ∧ r.place = .backup k ∧ r.stop = b.filled
  filled : ∀ (i : Nat) (r : Res) (k : Nat), s.res[i]? = some r → r.place = .backup k → r.start ≤ s.alloc → s.filled = r.start
  wmain : ∀ (i : Nat) (r : Res), s.res[i]? = some r → r.place = .main → r.written = true → Holds s.mem r
  wback : ∀ (i : Nat) (r : Res) (k : Nat) (b : Backup), s.res[i]? = some r → r.place = .backup k → s.backups[k]? = some b → r.written = true →
    Holds b.mem r
  wpend : ∀ (i : Nat) (r : Res), s.res[i]? = some r → r.place = .pending → r.written = false

theorem Inv.init (alloc : Nat) (mem : Nat → Byte) : Inv (St.init alloc mem) := by
  constructor <;> simp [St.init, Contig]

theorem getElem?_append_one {α : Type} {l : List α} {x y : α} {i : Nat} (h : (l ++ [x])[i]? = some y) :
    l[i]? = some y ∨ (i = l.length ∧ y = x) := by
  by_cases hi : i < l.length
  · left; rwa [List.getElem?_append_left hi] at h
  · right
    rw [List.getElem?_append_right (by omega)] at h
    have : i - l.length = 0 := by
      rcases Nat.eq_zero_or_pos (i - l.length) with h0 | h0
      · exact h0
      · rw [List.getElem?_eq_none (by simp; omega)] at h; cases h
    rw [this] at h
    simp at h
    exact ⟨by omega, h.symm⟩

theorem getElem?_append_one_left {α : Type} {l : List α} {x y : α} {i : Nat} (h : l[i]? = some y) :
    (l ++ [x])[i]? = some y := by
  have : i < l.length := by
    rcases Nat.lt_or_ge i l.length with h1 | h1
    · exact h1
    · rw [List.getElem?_eq_none h1] at h; cases h
  rw [List.getElem?_append_left this, h]

theorem Inv.reserve {s : St} (h : Inv s) {data : List Byte} (hd : 0 < data.length) (bk : Nat) :
    Inv (step bk s (.reserve data)) := by
  simp only [step]
  constructor
  · exact h.contig.append rfl hd
  · intro i r hi hp
    rcases getElem?_append_one hi with hi | ⟨_, rfl⟩
    · exact h.main i r hi hp
    · cases hp
  · intro i r k hi hp
    rcases getElem?_append_one hi with hi | ⟨_, rfl⟩
    · exact h.back i r k hi hp
    · cases hp
  · intro k b hb
    obtain ⟨h1, h2, i, r, h3, h4⟩ := h.full k b hb
    exact ⟨h1, h2, i, r, getElem?_append_one_left h3, h4⟩
  · intro i r k hi hp
    rcases getElem?_append_one hi with hi | ⟨_, rfl⟩
    · exact h.filled i r k hi hp
    · cases hp
  · intro i r hi hp hw
    rcases getElem?_append_one hi with hi | ⟨_, rfl⟩
    · exact h.wmain i r hi hp hw
    · cases hp
  · intro i r k b hi hp hb hw
    rcases getElem?_append_one hi with hi | ⟨_, rfl⟩
    · exact h.wback i r k b hi hp hb hw
    · cases hp
  · intro i r hi hp
    rcases getElem?_append_one hi with hi | ⟨_, rfl⟩
    · exact h.wpend i r hi hp
    · rfl

theorem set_get {α : Type} {l : List α} {i j : Nat} {x y z : α} (hi : l[i]? = some x)
    (h : (l.set i y)[j]? = some z) : (j = i ∧ z = y) ∨ (j ≠ i ∧ l[j]? = some z) := by
  have hl : i < l.length := by
    rcases Nat.lt_or_ge i l.length with h1 | h1
    · exact h1
    · rw [List.getElem?_eq_none h1] at hi; cases hi
  by_cases hij : i = j
  · subst hij
    rw [List.getElem?_set_self hl] at h
    injection h with h
    exact .inl ⟨rfl, h.symm⟩
  · rw [List.getElem?_set_ne hij] at h
    exact .inr ⟨fun e => hij e.symm, h⟩

theorem set_get_ne {α : Type} {l : List α} {i j : Nat} {y z : α} (hij : j ≠ i) (h : l[j]? = some z) :
    (l.set i y)[j]? = some z := by
  rw [List.getElem?_set_ne (fun e => hij e.symm)]; exact h

theorem set_get_self {α : Type} {l : List α} {i : Nat} {x y : α} (hi : l[i]? = some x) :
    (l.set i y)[i]? = some y := by
  have hl : i < l.length := by
    rcases Nat.lt_or_ge i l.length with h1 | h1
    · exact h1
    · rw [List.getElem?_eq_none h1] at hi; cases hi
  exact List.getElem?_set_self hl

theorem modify_get {α : Type} {l : List α} {k j : Nat} {f : α → α} {z : α} (h : (l.modify k f)[j]? = some z) :
    ∃ x, l[j]? = some x ∧ z = if j = k then f x else x := by
  rw [List.getElem?_modify] at h
  cases hx : l[j]? with
  | none => rw [hx] at h; cases h
  | some x =>
    rw [hx] at h
    injection h with h
    refine ⟨x, rfl, ?_⟩
    rw [← h]
    show (if k = j then f x else x) = _
    by_cases hk : k = j
    · rw [if_pos hk, if_pos hk.symm]
    · rw [if_neg hk, if_neg (fun e => hk e.symm)]

theorem get_modify {α : Type} {l : List α} {k j : Nat} {f : α → α} {x : α} (h : l[j]? = some x) :
    (l.modify k f)[j]? = some (if j = k then f x else x) := by
  rw [List.getElem?_modify, h]
  by_cases hk : k = j
  · rw [if_pos hk.symm]; simp [hk]
  · rw [if_neg (fun e => hk e.symm)]; simp [hk]

theorem Contig.uniq {rs : List Res} {e i j a : Nat} {r r' : Res} (h : Contig 0 rs e) (hi : rs[i]? = some r)
    (hj : rs[j]? = some r') (h1 : r.start ≤ a) (h2 : a < r.stop) (h3 : r'.start ≤ a) (h4 : a < r'.stop) :
    r.start = r'.start := by
  rcases Nat.lt_trichotomy i j with hij | hij | hij
  · have := h.ordered hi hj hij; omega
  · subst hij; rw [hi] at hj; injection hj with hj; rw [hj]
  · have := h.ordered hj hi hij; omega

theorem Inv.choose {s : St} (h : Inv s) {bk : Nat} (hb : 0 < bk) (i0 : Nat) : Inv (step bk s (.choose i0)) := by
  simp only [step]
  cases hr : s.res[i0]? with
  | none => exact h
  | some r0 =>
    simp only
    by_cases hp0 : r0.place = .pending
    · rw [if_pos hp0]
      have hw0 := h.wpend i0 r0 hr hp0
      have hbd := h.contig.bounds hr
      unfold chooseBuf
      by_cases hov : r0.stop > s.alloc
      · rw [if_pos hov]
        have hfill : ∀ (i : Nat) (r : Res), s.res[i]? = some r → (∃ k, r.place = .backup k) → r.start ≤ s.alloc →
            (if r0.start ≤ s.alloc then r0.start else s.filled) = r.start := by
          intro i r hi ⟨k, hk⟩ hle
          split
          · have h1 := (h.back i r k hi hk).1
            exact h.contig.uniq hr hi (by assumption) hov hle h1
          · exact h.filled i r k hi hk hle
        cases hs : search s.backups r0.stop with
        | some k0 =>
          obtain ⟨k, b, e, hk, hm, hlt⟩ := search_some hs
          rw [Nat.zero_add] at e; subst e
          simp only
          constructor
          · exact h.contig.set hr rfl rfl
          · intro i r hi hp
            rcases set_get hr hi with ⟨_, rfl⟩ | ⟨_, hi⟩
            · cases hp
            · exact h.main i r hi hp
          · intro i r k hi hp
            rcases set_get hr hi with ⟨_, rfl⟩ | ⟨_, hi⟩
            · injection hp with hp; subst hp
              refine ⟨hov, ⟨_, get_modify hk, ?_, ?_⟩, ?_⟩
              · rw [if_pos rfl]; exact Nat.le_of_lt hm
              · rw [if_pos rfl]; exact Nat.le_max_left ..
              · intro j b' hj hb'
                obtain ⟨x, hx, rfl⟩ := modify_get hb'
                rw [if_neg (by omega)]
                exact hlt j x hj hx
            · obtain ⟨h1, ⟨b1, h2, h3, h4⟩, h5⟩ := h.back i r k hi hp
              refine ⟨h1, ⟨_, get_modify h2, ?_, ?_⟩, ?_⟩
              · split <;> exact h3
              · split
                · exact Nat.le_trans h4 (Nat.le_max_right ..)
                · exact h4
              · intro j b' hj hb'
                obtain ⟨x, hx, rfl⟩ := modify_get hb'
                have := h5 j x hj hx
                split <;> exact this
          · intro k1 b1 hb1
            obtain ⟨x, hx, rfl⟩ := modify_get hb1
            obtain ⟨g1, g2, i, r, g3, g4, g5⟩ := h.full k1 x hx
            have hne : i ≠ i0 := by
              intro e; subst e; rw [hr] at g3; injection g3 with g3; subst g3; rw [hp0] at g4; cases g4
            split
            · rename_i hkk; subst hkk
              rw [hk] at hx; injection hx with hx; subst hx
              refine ⟨?_, g2, ?_⟩
              · exact Nat.max_le.2 ⟨Nat.le_of_lt hm, g1⟩
              · rcases Nat.le_total r0.stop b.filled with hle | hle
                · exact ⟨i, r, set_get_ne hne g3, g4, by rw [g5]; exact (Nat.max_eq_right hle).symm⟩
                · exact ⟨i0, _, set_get_self hr, rfl, (Nat.max_eq_left hle).symm⟩
            · exact ⟨g1, g2, i, r, set_get_ne hne g3, g4, g5⟩
          · intro i r k hi hp hle
            rcases set_get hr hi with ⟨_, rfl⟩ | ⟨_, hi⟩
            · exact if_pos hle
            · exact hfill i r hi ⟨k, hp⟩ hle
          · intro i r hi hp hw
            rcases set_get hr hi with ⟨_, rfl⟩ | ⟨_, hi⟩
            · cases hp
            · exact h.wmain i r hi hp hw
          · intro i r k b1 hi hp hb1 hw
            rcases set_get hr hi with ⟨_, rfl⟩ | ⟨_, hi⟩
            · simp only at hw; rw [hw0] at hw; cases hw
            · obtain ⟨x, hx, rfl⟩ := modify_get hb1
              have := h.wback i r k x hi hp hx hw
              split <;> exact this
          · intro i r hi hp
            rcases set_get hr hi with ⟨_, rfl⟩ | ⟨_, hi⟩
            · cases hp
            · exact h.wpend i r hi hp
        | none =>
          have hno := search_none hs
          have hpos : ∀ b ∈ s.backups, 0 < b.max := by
            intro b hb
            obtain ⟨k, hk⟩ := List.mem_iff_getElem?.1 hb
            exact (h.full k b hk).2.1
          obtain ⟨hn1, hn2⟩ := nextSize_ge hb hpos r0.stop
          simp only
          constructor
          · exact h.contig.set hr rfl rfl
          · intro i r hi hp
            rcases set_get hr hi with ⟨_, rfl⟩ | ⟨_, hi⟩
            · cases hp
            · exact h.main i r hi hp
          · intro i r k hi hp
            rcases set_get hr hi with ⟨_, rfl⟩ | ⟨_, hi⟩
            · injection hp with hp; subst hp
              refine ⟨hov, ⟨⟨nextSize bk s r0.stop, r0.stop, fun _ => 0⟩, by rw [List.getElem?_append_right (Nat.le_refl _)]; simp, hn1, Nat.le_refl _⟩, ?_⟩
              intro j b' hj hb'
              rw [List.getElem?_append_left hj] at hb'
              exact hno b' (List.mem_of_getElem? hb')
            · obtain ⟨h1, ⟨b1, h2, h3, h4⟩, h5⟩ := h.back i r k hi hp
              refine ⟨h1, ⟨b1, getElem?_append_one_left h2, h3, h4⟩, ?_⟩
              intro j b' hj hb'
              have hkl : k < s.backups.length := by
                rcases Nat.lt_or_ge k s.backups.length with g | g
                · exact g
                · rw [List.getElem?_eq_none g] at h2; cases h2
              rw [List.getElem?_append_left (by omega)] at hb'
              exact h5 j b' hj hb'
          · intro k1 b1 hb1
            rcases getElem?_append_one hb1 with hb1 | ⟨hk, rfl⟩
            · obtain ⟨g1, g2, i, r, g3, g4, g5⟩ := h.full k1 b1 hb1
              have hne : i ≠ i0 := by
                intro e; subst e; rw [hr] at g3; injection g3 with g3; subst g3; rw [hp0] at g4; cases g4
              exact ⟨g1, g2, i, r, set_get_ne hne g3, g4, g5⟩
            · exact ⟨hn1, hn2, i0, _, set_get_self hr, by rw [hk], rfl⟩
          · intro i r k hi hp hle
            rcases set_get hr hi with ⟨_, rfl⟩ | ⟨_, hi⟩
            · exact if_pos hle
            · exact hfill i r hi ⟨k, hp⟩ hle
          · intro i r hi hp hw
            rcases set_get hr hi with ⟨_, rfl⟩ | ⟨_, hi⟩
            · cases hp
            · exact h.wmain i r hi hp hw
          · intro i r k b1 hi hp hb1 hw
            rcases set_get hr hi with ⟨_, rfl⟩ | ⟨_, hi⟩
            · simp only at hw; rw [hw0] at hw; cases hw
            · obtain ⟨_, ⟨b2, h2, _⟩, _⟩ := h.back i r k hi hp
              rcases getElem?_append_one hb1 with hb1 | ⟨hk, rfl⟩
              · exact h.wback i r k b1 hi hp hb1 hw
              · rw [hk, List.getElem?_eq_none (Nat.le_refl _)] at h2; cases h2
          · intro i r hi hp
            rcases set_get hr hi with ⟨_, rfl⟩ | ⟨_, hi⟩
            · cases hp
            · exact h.wpend i r hi hp
      · rw [if_neg hov]
        simp only
        constructor
        · exact h.contig.set hr rfl rfl
        · intro i r hi hp
          rcases set_get hr hi with ⟨_, rfl⟩ | ⟨_, hi⟩
          · exact Nat.le_of_not_lt hov
          · exact h.main i r hi hp
        · intro i r k hi hp
          rcases set_get hr hi with ⟨_, rfl⟩ | ⟨_, hi⟩
          · cases hp
          · exact h.back i r k hi hp
        · intro k b hb
          obtain ⟨g1, g2, i, r, g3, g4, g5⟩ := h.full k b hb
          have hne : i ≠ i0 := by
            intro e; subst e; rw [hr] at g3; injection g3 with g3; subst g3; rw [hp0] at g4; cases g4
          exact ⟨g1, g2, i, r, set_get_ne hne g3, g4, g5⟩
        · intro i r k hi hp
          rcases set_get hr hi with ⟨_, rfl⟩ | ⟨_, hi⟩
          · cases hp
          · exact h.filled i r k hi hp
        · intro i r hi hp hw
          rcases set_get hr hi with ⟨_, rfl⟩ | ⟨_, hi⟩
          · simp only at hw; rw [hw0] at hw; cases hw
          · exact h.wmain i r hi hp hw
        · intro i r k b hi hp hb hw
          rcases set_get hr hi with ⟨_, rfl⟩ | ⟨_, hi⟩
          · cases hp
          · exact h.wback i r k b hi hp hb hw
        · intro i r hi hp
          rcases set_get hr hi with ⟨_, rfl⟩ | ⟨_, hi⟩
          · cases hp
          · exact h.wpend i r hi hp
    · rw [if_neg hp0]; exact h

theorem Holds.store_self {mem : Nat → Byte} {r : Res} : Holds (store mem r.start r.data) r := by
  intro o ho; exact store_in ho

theorem Contig.holds_store {rs : List Res} {e i j : Nat} {r r' : Res} {mem : Nat → Byte} (h : Contig 0 rs e)
    (hi : rs[i]? = some r) (hj : rs[j]? = some r') (hij : j ≠ i) (hh : Holds mem r') :
    Holds (store mem r.start r.data) r' := by
  intro o ho
  rw [store_out, hh o ho]
  rcases Nat.lt_or_gt_of_ne hij with g | g
  · have := h.ordered hj hi g; unfold Res.stop at this; omega
  · have := h.ordered hi hj g; unfold Res.stop at this; omega

theorem Inv.write {s : St} (h : Inv s) (bk i0 : Nat) : Inv (step bk s (.write i0)) := by
  simp only [step]
  cases hr : s.res[i0]? with
  | none => exact h
  | some r0 =>
    simp only
    have hfull : ∀ (k : Nat) (b : Backup), s.backups[k]? = some b → b.filled ≤ b.max ∧ 0 < b.max ∧
        ∃ (i : Nat) (r : Res), (s.res.set i0 { r0 with written := true })[i]? = some r ∧ r.place = .backup k ∧ r.stop = b.filled := by
      intro k b hb
      obtain ⟨g1, g2, i, r, g3, g4, g5⟩ := h.full k b hb
      by_cases hne : i = i0
      · subst hne; rw [hr] at g3; injection g3 with g3; subst g3
        exact ⟨g1, g2, i, _, set_get_self hr, g4, g5⟩
      · exact ⟨g1, g2, i, r, set_get_ne hne g3, g4, g5⟩
    cases hp0 : r0.place with
    | pending => exact h
    | main =>
      simp only
      constructor
      · exact h.contig.set hr rfl rfl
      · intro i r hi hp
        rcases set_get hr hi with ⟨_, rfl⟩ | ⟨_, hi⟩
        · exact h.main i0 r0 hr (hp0.trans hp)
        · exact h.main i r hi hp
      · intro i r k hi hp
        rcases set_get hr hi with ⟨_, rfl⟩ | ⟨_, hi⟩
        · exact h.back i0 r0 k hr (hp0.trans hp)
        · exact h.back i r k hi hp
      · exact hp0 ▸ hfull
      · intro i r k hi hp
        rcases set_get hr hi with ⟨_, rfl⟩ | ⟨_, hi⟩
        · exact h.filled i0 r0 k hr (hp0.trans hp)
        · exact h.filled i r k hi hp
      · intro i r hi hp hw
        rcases set_get hr hi with ⟨_, rfl⟩ | ⟨hne, hi⟩
        · exact Holds.store_self (r := r0)
        · exact h.contig.holds_store hr hi hne (h.wmain i r hi hp hw)
      · intro i r k b hi hp hb hw
        rcases set_get hr hi with ⟨_, rfl⟩ | ⟨_, hi⟩
        · simp only at hp; cases hp
        · exact h.wback i r k b hi hp hb hw
      · intro i r hi hp
        rcases set_get hr hi with ⟨_, rfl⟩ | ⟨_, hi⟩
        · simp only at hp; cases hp
        · exact h.wpend i r hi hp
    | backup k0 =>
      simp only
      have hm : ∀ {k : Nat} {b : Backup}, (s.backups.modify k0 (fun b => { b with mem := store b.mem r0.start r0.data }))[k]? = some b →
          ∃ x, s.backups[k]? = some x ∧ b.max = x.max ∧ b.filled = x.filled ∧
            b.mem = if k = k0 then store x.mem r0.start r0.data else x.mem := by
        intro k b hb
        obtain ⟨x, hx, rfl⟩ := modify_get hb
        refine ⟨x, hx, ?_⟩
        split <;> simp
      constructor
      · exact h.contig.set hr rfl rfl
      · intro i r hi hp
        rcases set_get hr hi with ⟨_, rfl⟩ | ⟨_, hi⟩
        · exact h.main i0 r0 hr (hp0.trans hp)
        · exact h.main i r hi hp
      · intro i r k hi hp
        have key : ∀ (i : Nat) (r : Res), s.res[i]? = some r → r.place = .backup k → s.alloc < r.stop ∧
            (∃ b : Backup, (s.backups.modify k0 (fun b => { b with mem := store b.mem r0.start r0.data }))[k]? = some b ∧
              r.stop ≤ b.max ∧ r.stop ≤ b.filled) ∧
            ∀ (j : Nat) (b' : Backup), j < k → (s.backups.modify k0 (fun b => { b with mem := store b.mem r0.start r0.data }))[j]? = some b' →
              b'.max ≤ r.stop := by
          intro i r hi hp
          obtain ⟨h1, ⟨b1, h2, h3, h4⟩, h5⟩ := h.back i r k hi hp
          refine ⟨h1, ⟨_, get_modify h2, ?_, ?_⟩, ?_⟩
          · split <;> exact h3
          · split <;> exact h4
          · intro j b' hj hb'
            obtain ⟨x, hx, hmx, _⟩ := hm hb'
            rw [hmx]; exact h5 j x hj hx
        rcases set_get hr hi with ⟨_, rfl⟩ | ⟨_, hi⟩
        · exact key i0 r0 hr (hp0.trans hp)
        · exact key i r hi hp
      · intro k b hb
        obtain ⟨x, hx, g1, g2, _⟩ := hm hb
        rw [g1, g2]; rw [hp0] at hfull; exact hfull k x hx
      · intro i r k hi hp
        rcases set_get hr hi with ⟨_, rfl⟩ | ⟨_, hi⟩
        · exact h.filled i0 r0 k hr (hp0.trans hp)
        · exact h.filled i r k hi hp
      · intro i r hi hp hw
        rcases set_get hr hi with ⟨_, rfl⟩ | ⟨hne, hi⟩
        · simp only at hp; cases hp
        · exact h.wmain i r hi hp hw
      · intro i r k b hi hp hb hw
        obtain ⟨x, hx, _, _, g3⟩ := hm hb
        rw [g3]
        rcases set_get hr hi with ⟨_, rfl⟩ | ⟨hne, hi⟩
        · injection hp with hp
          rw [if_pos hp.symm]
          exact Holds.store_self (r := r0)
        · have := h.wback i r k x hi hp hx hw
          split
          · exact h.contig.holds_store hr hi hne this
          · exact this
      · intro i r hi hp
        rcases set_get hr hi with ⟨_, rfl⟩ | ⟨_, hi⟩
        · simp only at hp; cases hp
        · exact h.wpend i r hi hp

/-- the operations of a schedule reserve no empty range -/
def Valid (ops : List Op) : Prop := ∀ op ∈ ops, ∀ data, op = .reserve data → data ≠ []

theorem Inv.run {bk : Nat} (hb : 0 < bk) (ops : List Op) : ∀ {s : St}, Inv s → Valid ops → Inv (run bk s ops) := by
  induction ops with
  | nil => intro s h _; exact h
  | cons op ops ih =>
    intro s h hv
    refine ih (s := step bk s op) ?_ (fun o ho => hv o (List.mem_cons_of_mem _ ho))
    cases op with
    | reserve data =>
      exact h.reserve (List.length_pos_iff.2 (hv _ (List.mem_cons_self ..) data rfl)) bk
    | choose i => exact h.choose hb i
    | write i => exact h.write bk i

/-! ### the merged buffer -/

theorem place_written {s : St} (h : Inv s) (hw : ∀ r ∈ s.res, r.written = true) {i : Nat} {r : Res}
    (hi : s.res[i]? = some r) : r.written = true ∧ r.place ≠ .pending := by
  have h1 := hw r (List.mem_of_getElem? hi)
  refine ⟨h1, fun hp => ?_⟩
  rw [h.wpend i r hi hp] at h1; cases h1

theorem merged {s : St} (h : Inv s) (hw : ∀ r ∈ s.res, r.written = true) {i : Nat} {r : Res}
    (hi : s.res[i]? = some r) : Holds (sendView s).1 r ∧ r.stop ≤ (sendView s).2 := by
  obtain ⟨hwr, hpl⟩ := place_written h hw hi
  unfold sendView
  cases hl : s.backups.getLast? with
  | none =>
    have hnil : s.backups = [] := List.getLast?_eq_none_iff.1 hl
    cases hp : r.place with
    | pending => exact absurd hp hpl
    | main => exact ⟨h.wmain i r hi hp hwr, h.main i r hi hp⟩
    | backup k =>
      obtain ⟨_, ⟨b, hb, _⟩, _⟩ := h.back i r k hi hp
      rw [hnil] at hb; simp at hb
  | some bl =>
    simp only
    -- the last backup
    have hlast : s.backups[s.backups.length - 1]? = some bl := by
      rw [List.getLast?_eq_getElem?] at hl; exact hl
    have hne : s.backups ≠ [] := by intro e; rw [e] at hl; cases hl
    have hlen : 0 < s.backups.length := List.length_pos_iff.2 hne
    obtain ⟨gl1, gl2, il, rl, hil, hpl', hsl⟩ := h.full _ bl hlast
    -- the reservation that crosses the end of the main buffer
    have hal := (h.back il rl _ hil hpl').1
    obtain ⟨ic, rc, hic, hc1, hc2⟩ := h.contig.crossing hil (Nat.zero_le _) hal
    obtain ⟨hcw, hcp⟩ := place_written h hw hic
    have hfil : s.filled = rc.start := by
      cases hp : rc.place with
      | pending => exact absurd hp hcp
      | main => have := h.main ic rc hic hp; omega
      | backup k => exact h.filled ic rc k hic hp hc1
    have before : ∀ {i j : Nat} {r r' : Res}, s.res[i]? = some r → s.res[j]? = some r' → r.stop ≤ r'.stop → i ≠ j →
        r.stop ≤ r'.start := by
      intro i j r r' h1 h2 h3 h4
      rcases Nat.lt_or_gt_of_ne h4 with g | g
      · exact h.contig.ordered h1 h2 g
      · have := h.contig.ordered h2 h1 g
        have := (h.contig.bounds h1).2.1
        unfold Res.stop at *; omega
    cases hp : r.place with
    | pending => exact absurd hp hpl
    | main =>
      have hst := h.main i r hi hp
      have hic_ne : i ≠ ic := by intro e; subst e; rw [hi] at hic; injection hic with e; subst e; omega
      have hb := before hi hic (by omega) hic_ne
      refine ⟨?_, ?_⟩
      · intro o ho
        obtain ⟨b0, bs, hbs⟩ : ∃ b0 bs, s.backups = b0 :: bs := by
          cases hbk : s.backups with
          | nil => exact absurd hbk hne
          | cons b0 bs => exact ⟨b0, bs, rfl⟩
        rw [hbs, copyLoop_first _ _ _ _ _ _ _ (Nat.zero_le _) (by unfold Res.stop at hb; omega)]
        exact h.wmain i r hi hp hwr o ho
      · omega
    | backup k =>
      obtain ⟨ha, ⟨b, hb, hbm, hbf⟩, hlow⟩ := h.back i r k hi hp
      have hfs : s.filled ≤ r.start := by
        rw [hfil]
        by_cases hic_e : i = ic
        · subst hic_e; rw [hi] at hic; injection hic with e; subst e; exact Nat.le_refl _
        · rcases Nat.lt_or_gt_of_ne hic_e with g | g
          · have := h.contig.ordered hi hic g; omega
          · have := h.contig.ordered hic hi g
            unfold Res.stop at this; omega
      have hprev : ∀ (j : Nat) (b' : Backup), j < k → s.backups[j]? = some b' → b'.filled ≤ r.start := by
        intro j b' hj hb'
        obtain ⟨_, _, ij, rj, hij, hpj, hsj⟩ := h.full j b' hb'
        obtain ⟨_, ⟨bj, hbj, hbjm, _⟩, _⟩ := h.back ij rj j hij hpj
        rw [hb'] at hbj; injection hbj with e; subst e
        have h1 := hlow j b' hj hb'
        rw [← hsj]
        refine before hij hi (by omega) ?_
        intro e; subst e; rw [hi] at hij; injection hij with e; subst e
        rw [hp] at hpj; injection hpj with e; omega
      have hkl : k < s.backups.length := by
        rcases Nat.lt_or_ge k s.backups.length with g | g
        · exact g
        · rw [List.getElem?_eq_none g] at hb; cases hb
      have hmem := h.wback i r k b hi hp hb hwr
      by_cases hk : k + 1 < s.backups.length
      · refine ⟨?_, ?_⟩
        · intro o ho
          rw [copyLoop_mid _ _ _ _ _ _ k b (Nat.zero_le _) (by omega) hb hk ?_ (by unfold Res.stop at hbf; omega)]
          · exact hmem o ho
          · intro j b' hj hb'
            have := hprev j b' hj hb'; omega
        · obtain ⟨_, ⟨bl', hbl', hblm, _⟩, hlow'⟩ := h.back il rl _ hil hpl'
          rw [hlast] at hbl'; injection hbl' with e; subst e
          have := hlow' k b (by omega) hb
          omega
      · have hke : k = s.backups.length - 1 := by omega
        subst hke
        rw [hlast] at hb; injection hb with e; subst e
        refine ⟨?_, hbm⟩
        intro o ho
        rw [copyLoop_above _ _ _ _ _ _ (by omega) ?_]
        · exact hmem o ho
        · intro j b' hj hb'
          have := hprev j b' (by omega) hb'; omega

end SST.Serial.Comm
