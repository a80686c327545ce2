import Verif.Stats.Vtk
/-
C151: pictures of the traffic: links are told apart, the switches of the filters are drawn with the level and the
colour that was measured.
-/
set_option autoImplicit false
namespace Verif.Stats.Vtk

/-! ### Specification -/

/-- The last colour given for a port at a time. -/
def lastGiven {α : Type} (h : List (Nat × Nat × α)) (t p : Nat) : Option α := ((h.filter (fun e => e.1 = t && e.2.1 = p)).map (·.2.2)).getLast?

/-- The last colour given for a port. -/
def lastColor {α : Type} (h : List (Nat × Nat × α)) (p : Nat) : Option α := ((h.filter (fun e => e.2.1 = p)).map (·.2.2)).getLast?

/-- What is drawn for a port at a time. -/
def drawn {α : Type} (es : List (Event α)) (t p : Nat) : Option α := (es.find? (fun e => e.time = t && e.port = p)).map Event.color

/-! ### Identifiers -/

theorem hi32 : ∀ i, i < 32 → (0xffff0000#32).getLsbD i = decide (16 ≤ i) := by decide
theorem lo32 : ∀ i, i < 32 → (0x0000ffff#32).getLsbD i = decide (i < 16) := by decide
theorem hi64 : ∀ i, i < 64 → (0xffffffff00000000#64).getLsbD i = decide (32 ≤ i) := by decide
theorem lo64 : ∀ i, i < 64 → (0x00000000ffffffff#64).getLsbD i = decide (i < 32) := by decide

theorem upper16 (a b : BitVec 16) : ((0xffff0000#32 &&& ((a.setWidth 32 <<< 16) ||| b.setWidth 32)) >>> 16).setWidth 16 = a := by
  apply BitVec.eq_of_getLsbD_eq
  intro i hi
  simp only [BitVec.getLsbD_setWidth, BitVec.getLsbD_ushiftRight, BitVec.getLsbD_and, BitVec.getLsbD_or, BitVec.getLsbD_shiftLeft]
  rw [hi32 _ (by omega)]
  have h1 : b.getLsbD (16 + i) = false := BitVec.getLsbD_of_ge _ _ (by omega)
  simp [h1, hi, show 16 + i < 32 by omega, show i < 32 by omega]

theorem lower16 (a b : BitVec 16) : (0x0000ffff#32 &&& ((a.setWidth 32 <<< 16) ||| b.setWidth 32)).setWidth 16 = b := by
  apply BitVec.eq_of_getLsbD_eq
  intro i hi
  simp only [BitVec.getLsbD_setWidth, BitVec.getLsbD_and, BitVec.getLsbD_or, BitVec.getLsbD_shiftLeft]
  rw [lo32 _ (by omega)]
  simp [hi, show i < 32 by omega]

theorem upper32 (a b : BitVec 32) : ((0xffffffff00000000#64 &&& ((a.setWidth 64 <<< 32) ||| b.setWidth 64)) >>> 32).setWidth 32 = a := by
  apply BitVec.eq_of_getLsbD_eq
  intro i hi
  simp only [BitVec.getLsbD_setWidth, BitVec.getLsbD_ushiftRight, BitVec.getLsbD_and, BitVec.getLsbD_or, BitVec.getLsbD_shiftLeft]
  rw [hi64 _ (by omega)]
  have h1 : b.getLsbD (32 + i) = false := BitVec.getLsbD_of_ge _ _ (by omega)
  simp [h1, hi, show 32 + i < 64 by omega, show i < 64 by omega]

theorem lower32 (a b : BitVec 32) : (0x00000000ffffffff#64 &&& ((a.setWidth 64 <<< 32) ||| b.setWidth 64)).setWidth 32 = b := by
  apply BitVec.eq_of_getLsbD_eq
  intro i hi
  simp only [BitVec.getLsbD_setWidth, BitVec.getLsbD_and, BitVec.getLsbD_or, BitVec.getLsbD_shiftLeft]
  rw [lo64 _ (by omega)]
  simp [hi, show i < 64 by omega]

/-- C151, identifiers (partial: numbers below 65536): a link and a port are recovered from their identifiers; so
different connections have different links. -/
theorem C151_links_partial :
    (∀ l : Link, Link.construct l.id64 = l) ∧ (∀ p : Port, Port.construct p.id32 = p)
    ∧ ∀ a b c d a' b' c' d' : Nat, a < 65536 → b < 65536 → c < 65536 → d < 65536 → a' < 65536 → b' < 65536 → c' < 65536 → d' < 65536 →
      (linkOf a b c d).id64 = (linkOf a' b' c' d').id64 → a = a' ∧ b = b' ∧ c = c' ∧ d = d' := by
  have h1 : ∀ l : Link, Link.construct l.id64 = l := by
    intro l
    simp only [Link.construct, Link.id64, upper32, lower32, upper16, lower16]
  refine ⟨h1, ?_, ?_⟩
  · intro p; simp only [Port.construct, Port.id32, upper16, lower16]
  · intro a b c d a' b' c' d' ha hb hc hd ha' hb' hc' hd' h
    have h2 := congrArg Link.construct h
    rw [h1, h1] at h2
    simp only [linkOf, Link.mk.injEq] at h2
    have key : ∀ x y : Nat, x < 65536 → y < 65536 → BitVec.ofNat 16 x = BitVec.ofNat 16 y → x = y := by
      intro x y hx hy h
      have := congrArg BitVec.toNat h
      rw [BitVec.toNat_ofNat, BitVec.toNat_ofNat, Nat.mod_eq_of_lt hx, Nat.mod_eq_of_lt hy] at this
      exact this
    exact ⟨key _ _ ha ha' h2.1, key _ _ hb hb' h2.2.1, key _ _ hc hc' h2.2.2.1, key _ _ hd hd' h2.2.2.2⟩

/-- A link. -/
example : (linkOf 3 1 4 2).id64 = 0x0003000100040002#64 := by decide

/-- C151 refuted for large networks: a link of switch 65536 is the link of switch 0, and the check for bad
identifiers, which compares the numbers after they were cut, passes. -/
theorem C151_links_refuted (b c d : Nat) : linkOf 65536 b c d = linkOf 0 b c d ∧ Link.construct (linkOf 65536 b c d).id64 = linkOf 65536 b c d :=
  ⟨rfl, C151_links_partial.1 _⟩

/-! ### Filters and levels -/

/-- C151, filters: a switch is drawn exactly if there are no filters or it is within one. -/
theorem C151_filter (fs : List (Int × Int)) (id : Int) : active fs id = true ↔ fs = [] ∨ ∃ p ∈ fs, p.1 ≤ id ∧ id ≤ p.2 := by
  unfold active
  rw [Bool.or_eq_true, List.isEmpty_iff, List.any_eq_true]
  simp

/-- C151, filters (partial: an even number of values): the ranges are the pairs of values. -/
theorem C151_ranges_partial (ps : List (Int × Int)) : filters (ps.flatMap (fun p => [p.1, p.2])) = some ps := by
  induction ps with
  | nil => rfl
  | cons p ps ih => simp only [List.flatMap_cons, List.cons_append, List.nil_append, filters, ih, Option.map_some]

/-- Two ranges. -/
example : filters [1, 3, 7, 9] = some [(1, 3), (7, 9)] ∧ active [(1, 3), (7, 9)] 8 = true ∧ active [(1, 3), (7, 9)] 4 = false := by decide

/-- C151 refuted for an odd number of values: memory behind the list is read. -/
theorem C151_ranges_refuted (ps : List (Int × Int)) (a : Int) : filters (ps.flatMap (fun p => [p.1, p.2]) ++ [a]) = none := by
  induction ps with
  | nil => rfl
  | cons p ps ih => simp only [List.flatMap_cons, List.cons_append, List.nil_append, filters, ih, Option.map_none]

/-- C151, levels (partial: thresholds in order): the level is the number of thresholds that the intensity reaches. -/
theorem C151_levels_partial (ts : List Int) (hs : ts.Pairwise (· ≤ ·)) (x : Int) : level ts x = ts.countP (fun t => decide (t ≤ x)) := by
  induction ts with
  | nil => rfl
  | cons t ts ih =>
    rw [List.pairwise_cons] at hs
    rw [level, ih hs.2, List.countP_cons]
    simp only [decide_eq_true_eq]
    by_cases ht : t ≤ x
    · simp only [if_pos ht]; split <;> omega
    · have : ts.countP (fun t => decide (t ≤ x)) = 0 := by
        rw [List.countP_eq_zero]
        intro u hu
        have := hs.1 u hu
        simp only [decide_eq_true_eq]
        omega
      simp [this, ht]

/-- Three thresholds. -/
example : ([1, 5, 9] : List Int).Pairwise (· ≤ ·) ∧ level [1, 5, 9] 6 = 2 := by decide

/-- C151 refuted for thresholds out of order: an intensity that reaches one threshold has the second level. -/
theorem C151_levels_refuted : level [5, 1] 2 = 2 ∧ ([5, 1] : List Int).countP (fun t => decide (t ≤ 2)) = 1 := by decide

/-! ### Colours -/

theorem has_eq {α : Type} (es : List (Event α)) (t p : Nat) : has es t p = (drawn es t p).isSome := by
  unfold has drawn
  rw [Option.isSome_map, Bool.eq_iff_iff, List.any_eq_true, List.find?_isSome]

theorem drawn_overwrite {α : Type} (es : List (Event α)) (t p : Nat) (c : α) (t' p' : Nat) :
    drawn (overwrite es t p c) t' p' = if t' = t ∧ p' = p then some c else drawn es t' p' := by
  unfold overwrite
  by_cases hh : has es t p = true
  · rw [if_pos hh]
    unfold drawn
    induction es with
    | nil => cases hh
    | cons e es ih =>
      rw [List.map_cons, List.find?_cons, List.find?_cons]
      by_cases he : e.time = t ∧ e.port = p
      · simp only [he, decide_true, Bool.and_self, if_true]
        by_cases hk : t' = t ∧ p' = p
        · simp [hk]
        · rw [if_neg hk]
          have hk2 : ¬ (t = t' ∧ p = p') := fun ⟨h1, h2⟩ => hk ⟨h1.symm, h2.symm⟩
          have hd : (decide (t = t') && decide (p = p')) = false := by
            simp only [Bool.and_eq_false_iff, decide_eq_false_iff_not]
            by_cases h1 : t = t'
            · exact Or.inr (fun h2 => hk2 ⟨h1, h2⟩)
            · exact Or.inl h1
          simp only [hd]
          by_cases hr : has es t p = true
          · rw [ih hr, if_neg hk]
          · have : es.map (fun e => if (decide (e.time = t) && decide (e.port = p)) = true then { e with color := c } else e) = es := by
              conv => rhs; rw [← List.map_id es]
              apply List.map_congr_left
              intro f hf
              rw [if_neg]
              · rfl
              · intro hft
                exact hr (List.any_eq_true.mpr ⟨f, hf, hft⟩)
            rw [this]
      · have hr : has es t p = true := by
          unfold has at hh ⊢
          rw [List.any_cons] at hh
          have : (decide (e.time = t) && decide (e.port = p)) = false := by
            rw [Bool.eq_false_iff]; simpa using fun h1 h2 => he ⟨h1, h2⟩
          rwa [this, Bool.false_or] at hh
        have hn : ¬ ((decide (e.time = t) && decide (e.port = p)) = true) := by simpa using fun h1 h2 => he ⟨h1, h2⟩
        rw [if_neg hn]
        by_cases hk' : (decide (e.time = t') && decide (e.port = p')) = true
        · simp only [hk']
          rw [if_neg]
          rintro ⟨rfl, rfl⟩
          exact hn hk'
        · rw [Bool.not_eq_true] at hk'
          simp only [hk']
          exact ih hr
  · rw [if_neg hh]
    have hnone : drawn es t p = none := by
      rw [has_eq] at hh
      cases h : drawn es t p with
      | none => rfl
      | some v => rw [h] at hh; exact absurd rfl hh
    unfold drawn at hnone ⊢
    rw [List.find?_append]
    by_cases hk : t' = t ∧ p' = p
    · obtain ⟨rfl, rfl⟩ := hk
      rw [Option.map_eq_none_iff] at hnone
      simp [hnone]
    · rw [if_neg hk]
      have : ¬ (t = t' ∧ p = p') := fun ⟨h1, h2⟩ => hk ⟨h1.symm, h2.symm⟩
      have hf : List.find? (fun e : Event α => decide (e.time = t') && decide (e.port = p')) [⟨t, p, c⟩] = none := by
        rw [List.find?_eq_none]
        intro e he
        rw [List.mem_singleton] at he
        subst he
        simpa using fun h1 h2 => this ⟨h1, h2⟩
      rw [hf, Option.or_none]

theorem snoc_ind {β : Type} {P : List β → Prop} (nil : P []) (snoc : ∀ h e, P h → P (h ++ [e])) (l : List β) : P l := by
  have : ∀ r : List β, P r.reverse := by
    intro r
    induction r with
    | nil => exact nil
    | cons e r ih => rw [List.reverse_cons]; exact snoc _ _ ih
  have h := this l.reverse
  rwa [List.reverse_reverse] at h

theorem collects_snoc {α : Type} (o : Ops α) (mi : Nat) (s : S α) (h : List (Nat × Nat × α)) (e : Nat × Nat × α) :
    collects o mi s (h ++ [e]) = collect o mi (collects o mi s h) e.1 e.2.1 e.2.2 := by
  simp [collects, List.foldl_append]

/-- C151, colours (partial: `min_interval` 0): for every history, what is drawn for a port at a time is the last
colour given for it then, and nothing if none was. -/
theorem C151_colors_partial {α : Type} (o : Ops α) (cur shown : Nat → α) (h : List (Nat × Nat × α)) (t p : Nat) :
    drawn (collects o 0 (init o cur shown) h).events t p = lastGiven h t p := by
  induction h using snoc_ind with
  | nil => rfl
  | snoc h e ih =>
    rw [collects_snoc]
    simp only [collect, if_true]
    rw [drawn_overwrite, ih]
    unfold lastGiven
    rw [List.filter_append, List.map_append]
    by_cases hk : t = e.1 ∧ p = e.2.1
    · obtain ⟨rfl, rfl⟩ := hk
      simp
    · rw [if_neg hk]
      have : List.filter (fun e : Nat × Nat × α => decide (e.1 = t) && decide (e.2.1 = p)) [e] = [] := by
        rw [List.filter_eq_nil_iff]
        intro a ha
        rw [List.mem_singleton] at ha
        subst ha
        simpa using fun h1 h2 => hk ⟨h1.symm, h2.symm⟩
      rw [this]
      simp

/-- Colours as integers. -/
def ops : Ops Int := ⟨0, fun a m b n k => (a * m + b * n) / k, fun x => x ≠ 0⟩

/-- Three colours, the second of which replaces the first. -/
example : drawn (collects ops 0 (init ops (fun _ => 0) (fun _ => 0)) [(5, 1, 7), (5, 1, 8), (6, 1, 9)]).events 5 1 = some 8 := by decide

theorem same {α : Type} (o : Ops α) (mi : Nat) (hm : mi ≠ 0) (h1 : List (Nat × Nat × α)) : ∀ (h2 : List (Nat × Nat × α)) (s : S α),
    h1.map (fun e => (e.1, e.2.1)) = h2.map (fun e => (e.1, e.2.1)) →
    h1.Pairwise (fun a b => a.2.1 = b.2.1 → a.1 < b.1) → (∀ e ∈ h1, (s.ports e.2.1).pending < e.1) →
    collects o mi s h1 = collects o mi s h2 := by
  induction h1 with
  | nil => intro h2 s h _ _; cases h2 with
    | nil => rfl
    | cons _ _ => cases h
  | cons a h1 ih =>
    intro h2 s h hp hs
    cases h2 with
    | nil => cases h
    | cons b h2 =>
      simp only [List.map_cons, List.cons.injEq, Prod.mk.injEq] at h
      obtain ⟨⟨ht, hport⟩, hrest⟩ := h
      rw [List.pairwise_cons] at hp
      have ha := hs a (by simp)
      have hstep : collect o mi s a.1 a.2.1 a.2.2 = collect o mi s b.1 b.2.1 b.2.2 := by
        rw [← ht, ← hport]
        unfold collect
        simp only [if_neg hm, if_pos (show a.1 ≠ (s.ports a.2.1).pending by omega)]
      have hpend : ∀ x, ((collect o mi s a.1 a.2.1 a.2.2).ports x).pending = (s.ports x).pending ∨ (x = a.2.1 ∧ ((collect o mi s a.1 a.2.1 a.2.2).ports x).pending = a.1) := by
        intro x
        unfold collect
        simp only [if_neg hm]
        split
        · by_cases hx : x = a.2.1
          · right; exact ⟨hx, by simp [hx]⟩
          · left; simp [hx]
        · by_cases hx : x = a.2.1
          · left; simp [hx]
          · left; simp [hx]
      show collects o mi (collect o mi s a.1 a.2.1 a.2.2) h1 = collects o mi (collect o mi s b.1 b.2.1 b.2.2) h2
      rw [← hstep]
      apply ih h2 _ hrest hp.2
      intro e he
      rcases hpend e.2.1 with hx | ⟨hx, hy⟩
      · rw [hx]; exact hs e (List.mem_cons_of_mem _ he)
      · rw [hy]; exact hp.1 e he hx.symm

/-- C151 refuted for averages: with a `min_interval` above 0 nothing that is drawn depends on the colours that
are given, since `current_color` is never set; it depends on the times and on what was in memory. -/
theorem C151_colors_refuted {α : Type} (o : Ops α) (mi : Nat) (hm : mi ≠ 0) (cur shown : Nat → α) (h1 h2 : List (Nat × Nat × α))
    (hk : h1.map (fun e => (e.1, e.2.1)) = h2.map (fun e => (e.1, e.2.1)))
    (ht : h1.Pairwise (fun a b => a.2.1 = b.2.1 → a.1 < b.1)) (h0 : ∀ e ∈ h1, 0 < e.1) :
    (collects o mi (init o cur shown) h1).events = (collects o mi (init o cur shown) h2).events := by
  rw [same o mi hm h1 h2 _ hk ht (by intro e he; exact h0 e he)]

/-- Two histories with different colours; with 3 in memory that is what is drawn. -/
example : drawn (collects ops 2 (init ops (fun _ => 3) (fun _ => 0)) [(5, 1, 100), (9, 1, 200)]).events 5 1 = some 3
    ∧ ([(5, 1, 100), (9, 1, 200)] : List (Nat × Nat × Int)).map (fun e => (e.1, e.2.1)) = ([(5, 1, 0), (9, 1, 0)] : List (Nat × Nat × Int)).map (fun e => (e.1, e.2.1)) := by decide

theorem shown_zero {α : Type} (o : Ops α) (cur shown : Nat → α) (h : List (Nat × Nat × α)) (p : Nat) :
    ((collects o 0 (init o cur shown) h).ports p).last = 0 ∧ ((collects o 0 (init o cur shown) h).ports p).shown = (lastColor h p).getD (shown p) := by
  induction h using snoc_ind with
  | nil => exact ⟨rfl, rfl⟩
  | snoc h e ih =>
    rw [collects_snoc]
    simp only [collect, if_true]
    unfold lastColor at ih ⊢
    rw [List.filter_append, List.map_append]
    by_cases hp : p = e.2.1
    · subst hp; simp [ih.1]
    · have : List.filter (fun e : Nat × Nat × α => decide (e.2.1 = p)) [e] = [] := by
        rw [List.filter_eq_nil_iff]
        intro a ha
        rw [List.mem_singleton] at ha
        subst ha
        simpa using fun h1 => hp h1.symm
      rw [this]
      simp [hp, ih.1, ih.2]

/-- C151 refuted for the end: with `min_interval` 0 the simulation aborts at its end exactly if some port has a last
colour other than 0, or none and memory was not 0, although the end is meant to reset all ports. -/
theorem C151_end_refuted {α : Type} (o : Ops α) (cur shown : Nat → α) (h : List (Nat × Nat × α)) (t : Nat) (ps : List Nat) :
    finalize o (collects o 0 (init o cur shown) h) t ps = none ↔ ∃ p ∈ ps, o.nonzero ((lastColor h p).getD (shown p)) = true := by
  have key : ∀ s : S α, (∀ p, (s.ports p).last = 0) → (finalize o s t ps = none ↔ ∃ p ∈ ps, o.nonzero (s.ports p).shown = true) := by
    intro s hs
    induction ps with
    | nil => simp [finalize]
    | cons p ps ih =>
      rw [finalize]
      simp only [hs p, ne_eq, not_true_eq_false, if_false, List.mem_cons, exists_eq_or_imp]
      by_cases hz : o.nonzero (s.ports p).shown = true
      · simp [hz]
      · rw [if_neg hz, ih]; simp [hz]
  rw [key _ (fun p => (shown_zero o cur shown h p).1)]
  simp only [(shown_zero o cur shown h _).2]

/-- The case occurs: a port without any traffic, and one with a last colour. -/
example : (finalize ops (collects ops 0 (init ops (fun _ => 0) (fun _ => 9)) []) 10 [0]).isNone = true
    ∧ (finalize ops (collects ops 0 (init ops (fun _ => 0) (fun _ => 0)) [(5, 0, 7)]) 10 [0]).isNone = true
    ∧ (finalize ops (collects ops 0 (init ops (fun _ => 0) (fun _ => 0)) [(5, 0, 7), (6, 0, 0)]) 10 [0]).isNone = false := by decide

end Verif.Stats.Vtk
