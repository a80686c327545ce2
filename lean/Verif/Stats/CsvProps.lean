import Verif.Stats.Csv
set_option autoImplicit false
/-
Statistics in files of comma-separated values: every value is under the heading of its field if the
statistics of the group have the same fields, and not otherwise; histograms count every value in
its bin, except the largest.
-/
namespace SST.Stats

variable {V : Type}

theorem registerField_spec (cols : List Nat) (n : Nat) (hn : cols.Nodup) :
    cols <+: (registerField cols n).2 ∧ (registerField cols n).2.Nodup ∧
    (registerField cols n).2[(registerField cols n).1]? = some n ∧
    ∀ c, c ∈ (registerField cols n).2 ↔ c ∈ cols ∨ c = n := by
  unfold registerField
  cases h : cols.idxOf? n with
  | some i =>
    have h' := List.findIdx?_eq_some_iff_getElem.1 h
    obtain ⟨hi, he, _⟩ := h'
    have he := beq_iff_eq.1 he
    refine ⟨List.prefix_refl _, hn, by simp [hi, he], ?_⟩
    intro c
    refine ⟨.inl, ?_⟩
    rintro (h | rfl)
    · exact h
    · rw [← he]; exact List.getElem_mem hi
  | none =>
    have hnot : n ∉ cols := by
      intro hm
      have := List.findIdx?_eq_none_iff.1 h n hm
      simp at this
    refine ⟨List.prefix_append _ _, ?_, by simp, by simp⟩
    rw [List.nodup_append]
    refine ⟨hn, by simp, ?_⟩
    intro a ha b hb
    rw [List.mem_singleton.1 hb]
    intro e; subst e; exact hnot ha

theorem registerFields_spec (ns : List Nat) : ∀ (cols : List Nat), cols.Nodup →
    cols <+: (registerFields cols ns).2 ∧ (registerFields cols ns).2.Nodup ∧ (registerFields cols ns).1.length = ns.length ∧
    (∀ (i h n : Nat), (registerFields cols ns).1[i]? = some h → ns[i]? = some n → (registerFields cols ns).2[h]? = some n) ∧
    ∀ c, c ∈ (registerFields cols ns).2 ↔ c ∈ cols ∨ c ∈ ns := by
  induction ns with
  | nil => intro cols hn; exact ⟨List.prefix_refl _, hn, rfl, by simp, by simp [registerFields]⟩
  | cons n ns ih =>
    intro cols hn
    obtain ⟨a1, a2, a3, a4⟩ := registerField_spec cols n hn
    obtain ⟨b1, b2, b3, b4, b5⟩ := ih _ a2
    simp only [registerFields]
    refine ⟨a1.trans b1, b2, by simp [b3], ?_, ?_⟩
    · intro i h m hi hm
      cases i with
      | zero =>
        simp only [List.getElem?_cons_zero, Option.some.injEq] at hi hm
        rw [← hi, ← hm]
        obtain ⟨t, ht⟩ := b1
        rw [← ht, List.getElem?_append_left]
        · exact a3
        · exact (List.getElem?_eq_some_iff.1 a3).1
      | succ i =>
        simp only [List.getElem?_cons_succ] at hi hm
        exact b4 i h m hi hm
    · intro c
      rw [b5, a4]
      simp only [List.mem_cons, or_assoc]

theorem registerAll_spec (ss : List (Stat V)) : ∀ (cols : List Nat), cols.Nodup →
    cols <+: (registerAll cols ss).2 ∧ (registerAll cols ss).2.Nodup ∧ (registerAll cols ss).1.length = ss.length ∧
    (∀ p ∈ (registerAll cols ss).1.zip ss, p.1.length = p.2.fields.length ∧
      ∀ (i h n : Nat), p.1[i]? = some h → (p.2.fields.map (·.1))[i]? = some n → (registerAll cols ss).2[h]? = some n) ∧
    ∀ c, c ∈ (registerAll cols ss).2 ↔ c ∈ cols ∨ ∃ s ∈ ss, c ∈ s.fields.map (·.1) := by
  induction ss with
  | nil => intro cols hn; exact ⟨List.prefix_refl _, hn, rfl, by simp [registerAll], by simp [registerAll]⟩
  | cons s ss ih =>
    intro cols hn
    obtain ⟨a1, a2, a3, a4, a5⟩ := registerFields_spec (s.fields.map (·.1)) cols hn
    obtain ⟨b1, b2, b3, b4, b5⟩ := ih _ a2
    simp only [registerAll]
    refine ⟨a1.trans b1, b2, by simp [b3], ?_, ?_⟩
    · intro p hp
      rw [List.zip_cons_cons, List.mem_cons] at hp
      rcases hp with rfl | hp
      · refine ⟨by rw [a3, List.length_map], ?_⟩
        intro i h n hi hm
        have := a4 i h n hi hm
        obtain ⟨t, ht⟩ := b1
        rw [← ht, List.getElem?_append_left]
        · exact this
        · exact (List.getElem?_eq_some_iff.1 this).1
      · exact b4 p hp
    · intro c
      rw [b5, a5]
      simp only [List.mem_cons, exists_eq_or_imp, or_assoc]

/-- The headings of a file are the names of the fields of the statistics of the group, each once. -/
theorem C113_headings (ss : List (Stat V)) :
    (csv ss).1.Nodup ∧ ∀ c, c ∈ (csv ss).1 ↔ ∃ s ∈ ss, c ∈ s.fields.map (·.1) := by
  obtain ⟨_, h2, _, _, h5⟩ := registerAll_spec ss [] .nil
  refine ⟨h2, fun c => (h5 c).trans ?_⟩
  simp only [List.not_mem_nil, false_or]

/-! ### One row -/

/-- The map `pending_` is sorted. -/
def Sorted (ps : List (Nat × V)) : Prop := ps.Pairwise fun p q => p.1 < q.1

theorem insert_spec (h : Nat) (v : V) (ps : List (Nat × V)) (hs : Sorted ps) :
    Sorted (insert h v ps) ∧ ∀ p, p ∈ insert h v ps → p = (h, v) ∨ p ∈ ps := by
  induction ps with
  | nil => exact ⟨by simp [insert, Sorted], by simp [insert]⟩
  | cons q ps ih =>
    simp only [Sorted, List.pairwise_cons] at hs
    obtain ⟨ih1, ih2⟩ := ih hs.2
    simp only [insert]
    split
    · rename_i hlt
      refine ⟨?_, ?_⟩
      · simp only [Sorted, List.pairwise_cons, List.mem_cons]
        refine ⟨?_, hs⟩
        rintro p (rfl | hp)
        · exact hlt
        · have := hs.1 p hp; omega
      · intro p hp
        simpa using hp
    · split
      · rename_i he
        refine ⟨?_, ?_⟩
        · simp only [Sorted, List.pairwise_cons]
          refine ⟨?_, hs.2⟩
          intro p hp
          have := hs.1 p hp; rw [he]; exact this
        · intro p hp
          rcases List.mem_cons.1 hp with h | h
          · exact .inl h
          · exact .inr (List.mem_cons_of_mem _ h)
      · refine ⟨?_, ?_⟩
        · simp only [Sorted, List.pairwise_cons]
          refine ⟨?_, ih1⟩
          intro p hp
          rcases ih2 p hp with rfl | h
          · show q.1 < h; omega
          · exact hs.1 p h
        · intro p hp
          rcases List.mem_cons.1 hp with h | h
          · exact .inr (by rw [h]; exact List.mem_cons_self)
          · rcases ih2 p h with h | h
            · exact .inl h
            · exact .inr (List.mem_cons_of_mem _ h)

theorem insert_keys (h : Nat) (v : V) (ps : List (Nat × V)) (k : Nat) :
    k ∈ (insert h v ps).map (·.1) ↔ k = h ∨ k ∈ ps.map (·.1) := by
  induction ps with
  | nil => simp [insert]
  | cons q ps ih =>
    simp only [insert]
    split
    · simp
    · split
      · rename_i he; simp [he]
      · simp only [List.map_cons, List.mem_cons, ih]
        constructor
        · rintro (h | h | h)
          · exact .inr (.inl h)
          · exact .inl h
          · exact .inr (.inr h)
        · rintro (h | h | h)
          · exact .inr (.inl h)
          · exact .inl h
          · exact .inr (.inr h)

/-- What holds while a row is written: `val` are the right values. -/
structure Good (val : Nat → Option V) (r : Row V) : Prop where
  cells : r.cells.map some = (List.range r.next).map val
  sorted : Sorted r.pending
  vals : ∀ p ∈ r.pending, val p.1 = some p.2
  above : ∀ p ∈ r.pending, r.next < p.1

theorem pending_spec (val : Nat → Option V) (ps : List (Nat × V)) : ∀ (cells : List V) (next : Nat),
    cells.map some = (List.range next).map val → Sorted ps → (∀ p ∈ ps, val p.1 = some p.2) → (∀ p ∈ ps, next ≤ p.1) →
    Good val (outputPending cells next ps) ∧
    ∀ h, (h < (outputPending cells next ps).next ∨ h ∈ (outputPending cells next ps).pending.map (·.1)) ↔
      (h < next ∨ h ∈ ps.map (·.1)) := by
  induction ps with
  | nil => intro cells next hc hs hv ha; exact ⟨⟨hc, hs, hv, by simp [outputPending]⟩, by simp [outputPending]⟩
  | cons p ps ih =>
    intro cells next hc hs hv ha
    simp only [Sorted, List.pairwise_cons] at hs
    simp only [outputPending]
    split
    · rename_i he
      have := ih (cells ++ [p.2]) (next + 1)
        (by rw [List.map_append, hc, List.range_succ, List.map_append, ← he]; simp [hv p List.mem_cons_self]) hs.2
        (fun q hq => hv q (List.mem_cons_of_mem _ hq)) (fun q hq => by have := hs.1 q hq; omega)
      refine ⟨this.1, ?_⟩
      intro h
      rw [this.2 h]
      simp only [List.map_cons, List.mem_cons, he]
      constructor
      · rintro (h1 | h1)
        · by_cases e : h = next
          · exact .inr (.inl e)
          · exact .inl (by omega)
        · exact .inr (.inr h1)
      · rintro (h1 | h1 | h1)
        · exact .inl (by omega)
        · exact .inl (by omega)
        · exact .inr h1
    · rename_i he
      refine ⟨⟨hc, List.pairwise_cons.2 hs, hv, ?_⟩, fun h => Iff.rfl⟩
      intro q hq
      have h1 := ha p List.mem_cons_self
      rcases List.mem_cons.1 hq with rfl | hq
      · show next < q.1; omega
      · have := hs.1 q hq
        show next < q.1; omega

theorem output_spec (val : Nat → Option V) (r : Row V) (h : Nat) (v : V) (hg : Good val r) (hv : val h = some v)
    (hnew : ¬ (h < r.next ∨ h ∈ r.pending.map (·.1))) :
    Good val (output r h v) ∧ ∀ k, (k < (output r h v).next ∨ k ∈ (output r h v).pending.map (·.1)) ↔
      (k = h ∨ k < r.next ∨ k ∈ r.pending.map (·.1)) := by
  have hcell : ∀ e : h = r.next, (r.cells ++ [v]).map some = (List.range (r.next + 1)).map val := by
    intro e
    rw [List.map_append, hg.cells, List.range_succ, List.map_append, ← e]; simp [hv]
  unfold output
  split
  · rename_i he
    split
    · rename_i hp
      refine ⟨⟨hcell he, hg.sorted, hg.vals, by rw [hp]; simp⟩, ?_⟩
      intro k
      simp only [hp, List.map_nil, List.not_mem_nil, or_false]
      omega
    · obtain ⟨g, hk⟩ := pending_spec val r.pending _ _ (hcell he) hg.sorted hg.vals (fun p hp => hg.above p hp)
      refine ⟨g, ?_⟩
      intro k
      rw [hk k, he]
      constructor
      · rintro (h1 | h1)
        · by_cases e : k = r.next
          · exact .inl e
          · exact .inr (.inl (by omega))
        · exact .inr (.inr h1)
      · rintro (h1 | h1 | h1)
        · exact .inl (by omega)
        · exact .inl (by omega)
        · exact .inr h1
  · rename_i he
    obtain ⟨i1, i2⟩ := insert_spec h v r.pending hg.sorted
    refine ⟨⟨hg.cells, i1, ?_, ?_⟩, ?_⟩
    · intro p hp
      rcases i2 p hp with rfl | hp
      · exact hv
      · exact hg.vals p hp
    · intro p hp
      rcases i2 p hp with rfl | hp
      · show r.next < h
        have : ¬ h < r.next := fun h' => hnew (.inl h')
        omega
      · exact hg.above p hp
    · intro k
      show (k < r.next ∨ k ∈ (insert h v r.pending).map (·.1)) ↔ _
      rw [insert_keys]
      constructor
      · rintro (h1 | h1 | h1)
        · exact .inr (.inl h1)
        · exact .inl h1
        · exact .inr (.inr h1)
      · rintro (h1 | h1 | h1)
        · exact .inr (.inl h1)
        · exact .inl h1
        · exact .inr (.inr h1)

/-- Fields output in any order fill the row in the order of the columns, and nothing is left over. -/
theorem row_spec (val : Nat → Option V) (n : Nat) (os : List (Nat × V)) (hd : (os.map (·.1)).Nodup)
    (hv : ∀ p ∈ os, val p.1 = some p.2) (hn : ∀ h, h ∈ os.map (·.1) ↔ h < n) :
    (os.foldl (fun r p => output r p.1 p.2) ⟨[], 0, []⟩).cells.map some = (List.range n).map val ∧
    (os.foldl (fun r p => output r p.1 p.2) ⟨[], 0, []⟩).pending = [] := by
  have key : ∀ (os : List (Nat × V)) (r : Row V), Good val r → (os.map (·.1)).Nodup → (∀ p ∈ os, val p.1 = some p.2) →
      (∀ p ∈ os, ¬ (p.1 < r.next ∨ p.1 ∈ r.pending.map (·.1))) →
      Good val (os.foldl (fun r p => output r p.1 p.2) r) ∧
      ∀ k, (k < (os.foldl (fun r p => output r p.1 p.2) r).next ∨
          k ∈ (os.foldl (fun r p => output r p.1 p.2) r).pending.map (·.1)) ↔
        (k ∈ os.map (·.1) ∨ k < r.next ∨ k ∈ r.pending.map (·.1)) := by
    intro os
    induction os with
    | nil => intro r hg _ _ _; exact ⟨hg, by simp⟩
    | cons p os ih =>
      intro r hg hd hv hnew
      rw [List.map_cons, List.nodup_cons] at hd
      obtain ⟨g, hk⟩ := output_spec val r p.1 p.2 hg (hv p List.mem_cons_self) (hnew p List.mem_cons_self)
      obtain ⟨g', hk'⟩ := ih (output r p.1 p.2) g hd.2 (fun q hq => hv q (List.mem_cons_of_mem _ hq)) (by
        intro q hq
        rw [hk]
        rintro (h | h)
        · exact hd.1 (by rw [← h]; exact List.mem_map_of_mem hq)
        · exact hnew q (List.mem_cons_of_mem _ hq) h)
      refine ⟨g', ?_⟩
      intro k
      rw [List.foldl_cons, hk', hk]
      simp only [List.map_cons, List.mem_cons]
      constructor
      · rintro (h | h | h)
        · exact .inl (.inr h)
        · exact .inl (.inl h)
        · exact .inr h
      · rintro ((h | h) | h)
        · exact .inr (.inl h)
        · exact .inl h
        · exact .inr (.inr h)
  obtain ⟨g, hk⟩ := key os ⟨[], 0, []⟩ ⟨rfl, .nil, by simp, by simp⟩ hd hv (by simp)
  revert g hk
  generalize os.foldl (fun r p => output r p.1 p.2) ⟨[], 0, []⟩ = r
  intro g hk
  have hk' : ∀ k, (k < r.next ∨ k ∈ r.pending.map (·.1)) ↔ k < n := by
    intro k; rw [hk, hn]; simp
  have hnext : r.next = n := by
    have h1 : ¬ r.next < n := by
      intro h
      rcases (hk' r.next).2 h with h | h
      · omega
      · obtain ⟨p, hp, e⟩ := List.mem_map.1 h
        have := g.above p hp; omega
    have h2 : ¬ n < r.next := by
      intro h
      have := (hk' n).1 (.inl h); omega
    omega
  refine ⟨by rw [g.cells, hnext], ?_⟩
  cases hp : r.pending with
  | nil => rfl
  | cons p ps =>
    have h1 := g.above p (by rw [hp]; exact List.mem_cons_self)
    have h2 := (hk' p.1).1 (.inr (by rw [hp]; exact List.mem_cons_self))
    omega

/-- If the statistics of a group have the same fields, in whatever order each outputs them, every
row has the value of each field under the heading of that field.  Full property: for every group. -/
theorem C113_rows_partial (ss : List (Stat V)) (hd : ∀ s ∈ ss, (s.fields.map (·.1)).Nodup)
    (hsame : ∀ s ∈ ss, ∀ s' ∈ ss, ∀ n, n ∈ s.fields.map (·.1) → n ∈ s'.fields.map (·.1)) :
    (csv ss).2.map (·.map some) = ss.map fun s => (csv ss).1.map fun c => s.fields.lookup c := by
  obtain ⟨hpre, hnd, hlen, hh, hc⟩ := registerAll_spec ss [] .nil
  clear hpre
  have hlook : ∀ (l : List (Nat × V)), (l.map (·.1)).Nodup → ∀ p ∈ l, l.lookup p.1 = some p.2 := by
    intro l
    induction l with
    | nil => intro _ p hp; simp at hp
    | cons q l ih =>
      intro hn p hp
      rw [List.map_cons, List.nodup_cons] at hn
      rcases List.mem_cons.1 hp with rfl | hp
      · rw [List.lookup_cons]; simp
      · have hne : (p.1 == q.1) = false := by
          rw [beq_eq_false_iff_ne]
          intro e
          exact hn.1 (by rw [← e]; exact List.mem_map_of_mem hp)
        rw [List.lookup_cons, hne]
        exact ih hn.2 p hp
  have hcols : (csv ss).1 = (registerAll [] ss).2 := rfl
  have hrows : (csv ss).2 = outputAll [] ((registerAll [] ss).1.zip ss) := rfl
  rw [hcols, hrows]
  clear hcols hrows
  revert hnd hlen hh hc
  generalize (registerAll [] ss).2 = cols
  generalize (registerAll [] ss).1 = hs
  intro hnd hlen hh hc
  have hone : ∀ p ∈ hs.zip ss, (outputStat [] p.1 p.2).cells.map some = cols.map (fun c => p.2.fields.lookup c) ∧
      (outputStat [] p.1 p.2).pending = [] := by
    intro p hp
    obtain ⟨hl, hm⟩ := hh p hp
    have hps : p.2 ∈ ss := (List.of_mem_zip hp).2
    have hnames := hd p.2 hps
    have hmem : ∀ c, c ∈ cols ↔ c ∈ p.2.fields.map (·.1) := by
      intro c
      rw [hc]
      constructor
      · rintro (h | ⟨s, hs, h⟩)
        · simp at h
        · exact hsame s hs p.2 hps c h
      · intro h; exact .inr ⟨p.2, hps, h⟩
    have hfst : (p.1.zip (p.2.fields.map (·.2))).map (·.1) = p.1 := by
      rw [List.map_fst_zip]; rw [List.length_map]; omega
    have hget : ∀ (i h : Nat), p.1[i]? = some h → ∃ f, p.2.fields[i]? = some f ∧ cols[h]? = some f.1 := by
      intro i h hi
      have hlt : i < p.2.fields.length := by rw [← hl]; exact (List.getElem?_eq_some_iff.1 hi).1
      refine ⟨p.2.fields[i], List.getElem?_eq_getElem hlt, ?_⟩
      exact hm i h _ hi (by rw [List.getElem?_map, List.getElem?_eq_getElem hlt]; rfl)
    have hidx : ∀ (i j : Nat), i < cols.length → cols[i]? = cols[j]? → i = j := by
      intro i j hi he
      exact (List.getElem?_inj hi hnd).1 he
    have := row_spec (fun h => cols[h]?.bind fun c => p.2.fields.lookup c) cols.length (p.1.zip (p.2.fields.map (·.2)))
      (by
        rw [hfst, List.Nodup, List.pairwise_iff_getElem]
        intro i j hi hj hij e
        obtain ⟨f, hf, hcf⟩ := hget i p.1[i] (List.getElem?_eq_getElem hi)
        obtain ⟨g, hg, hcg⟩ := hget j p.1[j] (List.getElem?_eq_getElem hj)
        rw [e, hcg] at hcf
        injection hcf with hcf
        have h1 : (p.2.fields.map (·.1))[i]? = (p.2.fields.map (·.1))[j]? := by
          rw [List.getElem?_map, List.getElem?_map, hf, hg]; simp [hcf]
        have := (List.getElem?_inj (by rw [List.length_map, ← hl]; omega) hnames).1 h1
        omega)
      (by
        intro q hq
        obtain ⟨i, hi⟩ := List.mem_iff_getElem?.1 hq
        rw [List.getElem?_zip_eq_some] at hi
        obtain ⟨f, hf, hcf⟩ := hget i q.1 hi.1
        have h2 := hi.2
        rw [List.getElem?_map, hf] at h2
        simp only [Option.map_some, Option.some.injEq] at h2
        simp only [hcf, Option.bind_some]
        rw [← h2]
        exact hlook _ hnames f (List.mem_of_getElem? hf))
      (by
        intro h
        rw [hfst]
        constructor
        · intro hm'
          obtain ⟨i, hi⟩ := List.mem_iff_getElem?.1 hm'
          obtain ⟨f, hf, hcf⟩ := hget i h hi
          exact (List.getElem?_eq_some_iff.1 hcf).1
        · intro hlt
          have hin := (hmem cols[h]).1 (List.getElem_mem hlt)
          obtain ⟨i, hi⟩ := List.mem_iff_getElem?.1 hin
          have hlt' : i < p.1.length := by
            have := (List.getElem?_eq_some_iff.1 hi).1
            rw [List.length_map] at this; omega
          have h1 := List.getElem?_eq_getElem hlt'
          have := hm i p.1[i] _ h1 hi
          rw [← List.getElem?_eq_getElem hlt] at this
          have := hidx h p.1[i] hlt this.symm
          rw [this]
          exact List.getElem_mem hlt')
    refine ⟨?_, this.2⟩
    show ((p.1.zip (p.2.fields.map (·.2))).foldl (fun r p => output r p.1 p.2) ⟨[], 0, []⟩).cells.map some = _
    rw [this.1]
    apply List.ext_getElem?
    intro i
    rw [List.getElem?_map, List.getElem?_map]
    by_cases hi : i < cols.length
    · rw [List.getElem?_range hi, List.getElem?_eq_getElem hi]
      simp [List.getElem?_eq_getElem hi]
    · rw [List.getElem?_eq_none (by simpa using hi), List.getElem?_eq_none (by simpa using hi)]; rfl
  clear hsame hd hc hh
  induction ss generalizing hs with
  | nil => cases hs with
    | nil => rfl
    | cons a hs => simp at hlen
  | cons s ss ih =>
    cases hs with
    | nil => simp at hlen
    | cons a hs =>
      have h1 := hone (a, s) (by simp)
      simp only [List.zip_cons_cons, outputAll, List.map_cons]
      rw [h1.1, h1.2]
      congr 1
      exact ih hs (by simpa using hlen) (fun p hp => hone p (by rw [List.zip_cons_cons]; exact List.mem_cons_of_mem _ hp))

/-! ### Histograms -/

/-- Values from the lower end of bin `i`, included, to its upper end, excluded, when the interval
from `min` to `max` is cut into `n` equal bins. -/
def InBin (min max : Rat) (n i : Nat) (v : Rat) : Prop :=
  min + (i : Rat) * ((max - min) / (n : Rat)) ≤ v ∧ v < min + ((i : Rat) + 1) * ((max - min) / (n : Rat))

instance (min max : Rat) (n i : Nat) (v : Rat) : Decidable (InBin min max n i v) := by
  unfold InBin; infer_instance

/-- How often values in bin `i` were seen. -/
def seen (min max : Rat) (n i : Nat) (data : List (Rat × Nat)) : Nat :=
  ((data.filter fun d => decide (InBin min max n i d.1)).map (·.2)).sum

theorem binSize_pos {min max : Rat} {n : Nat} (h : min < max) (hn : 0 < n) : 0 < (max - min) / (n : Rat) := by
  rw [Rat.lt_div_iff (Rat.natCast_pos.2 hn)]
  grind

theorem n_binSize {min max : Rat} {n : Nat} (hn : 0 < n) : (n : Rat) * ((max - min) / (n : Rat)) = max - min := by
  have : (n : Rat) ≠ 0 := by
    have := Rat.natCast_pos.2 hn
    grind
  grind

/-- The bin of a value. -/
theorem bin_spec {min max : Rat} {n : Nat} (h : min < max) (hn : 0 < n) {v : Rat} (h1 : min ≤ v) :
    InBin min max n ((v - min) / ((max - min) / (n : Rat))).floor.toNat v ∧
    ∀ i, InBin min max n i v → i = ((v - min) / ((max - min) / (n : Rat))).floor.toNat := by
  have hb := binSize_pos h hn
  revert hb
  unfold InBin
  generalize (max - min) / (n : Rat) = b
  intro hb
  have h0 : (0 : Rat) ≤ (v - min) / b := by
    rw [← Rat.not_lt, Rat.div_lt_iff hb]
    grind
  have hf0 : 0 ≤ ((v - min) / b).floor := by
    rw [Rat.le_floor_iff]; simpa using h0
  have hcast : ((((v - min) / b).floor.toNat : Nat) : Rat) = ((((v - min) / b).floor : Int) : Rat) := by
    have : ((((v - min) / b).floor.toNat : Nat) : Int) = ((v - min) / b).floor := Int.toNat_of_nonneg hf0
    rw [← this]; rfl
  have hlo := Rat.floor_le ((v - min) / b)
  have hhi := Rat.lt_floor_add_one ((v - min) / b)
  rw [Rat.intCast_add] at hhi
  rw [← hcast] at hlo hhi
  have hhi : (v - min) / b < ((((v - min) / b).floor.toNat : Nat) : Rat) + 1 := hhi
  revert hlo hhi
  generalize ((v - min) / b).floor.toNat = k
  intro hhi hlo
  have hlo' : (k : Rat) * b ≤ v - min := by
    rw [← Rat.not_lt, ← Rat.div_lt_iff hb, Rat.not_lt]; assumption
  have hhi' : v - min < ((k : Rat) + 1) * b := by
    rw [← Rat.div_lt_iff hb]; assumption
  refine ⟨⟨by grind, by grind⟩, ?_⟩
  rintro i ⟨i1, i2⟩
  have a1 : (i : Rat) * b < ((k : Rat) + 1) * b := by grind
  have a2 : (k : Rat) * b < ((i : Rat) + 1) * b := by grind
  have a1 := (Rat.mul_lt_mul_right hb).1 a1
  have a2 := (Rat.mul_lt_mul_right hb).1 a2
  have b1 : i < k + 1 := by rw [← Rat.natCast_lt_natCast, Rat.natCast_add]; exact a1
  have b2 : k < i + 1 := by rw [← Rat.natCast_lt_natCast, Rat.natCast_add]; exact a2
  omega

theorem bin_lt {min max : Rat} {n : Nat} (h : min < max) (hn : 0 < n) {v : Rat} (h2 : v < max) {i : Nat}
    (hi : InBin min max n i v) : i < n := by
  have hb := binSize_pos h hn
  have e := n_binSize (min := min) (max := max) hn
  obtain ⟨i1, _⟩ := hi
  revert hb e i1
  generalize (max - min) / (n : Rat) = b
  intro hb e i1
  have a : (i : Rat) * b < (n : Rat) * b := by grind
  exact Rat.natCast_lt_natCast.1 ((Rat.mul_lt_mul_right hb).1 a)

theorem not_inBin {min max : Rat} {n : Nat} (h : min < max) (hn : 0 < n) {v : Rat} (hv : max < v ∨ v < min) {i : Nat}
    (hi : i < n) : ¬ InBin min max n i v := by
  rintro ⟨i1, i2⟩
  have hb := binSize_pos h hn
  have e := n_binSize (min := min) (max := max) hn
  revert hb e i1 i2
  generalize (max - min) / (n : Rat) = b
  intro i2 i1 hb e
  have h0 : (0 : Rat) ≤ (i : Rat) * b := Rat.mul_nonneg Rat.natCast_nonneg (by grind)
  have h3 : ((i : Rat) + 1) * b ≤ (n : Rat) * b := by
    refine Rat.mul_le_mul_of_nonneg_right ?_ (by grind)
    have : ((i + 1 : Nat) : Rat) ≤ (n : Rat) := Rat.natCast_le_natCast.2 hi
    rw [Rat.natCast_add] at this
    exact this
  grind

/-- A histogram over an interval of positive length counts every value in its bin and ignores the
values outside the interval.  Full property: also if the largest value of the interval, `max`, is
among the data. -/
theorem C113_histogram_partial (min max : Rat) (n : Nat) (h : min < max) (hn : 0 < n) (data : List (Rat × Nat))
    (hmax : ∀ d ∈ data, d.1 ≠ max) :
    ∃ h0 h1, Hist.make min max n = some h0 ∧ h0.addAll data = some h1 ∧ h1.counts.length = n ∧
      ∀ i, i < n → h1.counts[i]? = some (seen min max n i data) := by
  have hb := binSize_pos h hn
  have key : ∀ (data : List (Rat × Nat)), (∀ d ∈ data, d.1 ≠ max) → ∀ cs : List Nat, cs.length = n →
      ∃ cs', Hist.addAll ⟨min, max, (max - min) / (n : Rat), cs⟩ data = some ⟨min, max, (max - min) / (n : Rat), cs'⟩ ∧
        cs'.length = n ∧ ∀ i (hi : i < cs.length), cs'[i]? = some (cs[i] + seen min max n i data) := by
    intro data
    induction data with
    | nil => intro _ cs hl; exact ⟨cs, rfl, hl, fun i hi => by simp [seen, hi]⟩
    | cons d data ih =>
      intro hmax cs hl
      have hmax' := fun e he => hmax e (List.mem_cons_of_mem d he)
      have hd := hmax d List.mem_cons_self
      by_cases hout : max < d.1 ∨ d.1 < min
      · obtain ⟨cs', e1, e2, e3⟩ := ih hmax' cs hl
        refine ⟨cs', ?_, e2, ?_⟩
        · rw [← e1]
          have : Hist.add ⟨min, max, (max - min) / (n : Rat), cs⟩ d.1 d.2 = some ⟨min, max, (max - min) / (n : Rat), cs⟩ := by
            unfold Hist.add
            rcases hout with ho | ho
            · rw [if_pos ho]
            · rw [if_pos ho]; split <;> rfl
          simp only [Hist.addAll, List.foldlM_cons, this]
          rfl
        · intro i hi
          rw [e3 i hi]
          simp only [seen, List.filter_cons, decide_eq_false (not_inBin h hn hout (hl ▸ hi))]
          rfl
      · have hge : min ≤ d.1 := by rw [← Rat.not_lt]; exact fun h => hout (.inr h)
        have hle : d.1 ≤ max := by rw [← Rat.not_lt]; exact fun h => hout (.inl h)
        have hlt : d.1 < max := by grind
        obtain ⟨b1, b2⟩ := bin_spec h hn hge
        have hk := bin_lt h hn hlt b1
        revert b1 b2 hk
        have hadd : Hist.add ⟨min, max, (max - min) / (n : Rat), cs⟩ d.1 d.2 =
            match cs[((d.1 - min) / ((max - min) / (n : Rat))).floor.toNat]? with
            | some c => some ⟨min, max, (max - min) / (n : Rat), cs.set ((d.1 - min) / ((max - min) / (n : Rat))).floor.toNat (c + d.2)⟩
            | none => none := by
          unfold Hist.add
          rw [if_neg (fun h => hout (.inl h)), if_neg (fun h => hout (.inr h))]
          rfl
        revert hadd
        generalize ((d.1 - min) / ((max - min) / (n : Rat))).floor.toNat = k
        intro hadd b1 b2 hk
        rw [← hl] at hk
        rw [List.getElem?_eq_getElem hk] at hadd
        obtain ⟨cs', e1, e2, e3⟩ := ih hmax' (cs.set k (cs[k] + d.2)) (by rw [List.length_set]; exact hl)
        refine ⟨cs', ?_, e2, ?_⟩
        · rw [← e1]
          simp only [Hist.addAll, List.foldlM_cons, hadd]
          rfl
        · intro i hi
          rw [e3 i (by rw [List.length_set]; exact hi)]
          simp only [seen, List.filter_cons]
          by_cases hik : i = k
          · subst hik
            simp [b1]
            omega
          · have : ¬ InBin min max n i d.1 := fun hb => hik (b2 i hb)
            simp [this, Ne.symm hik]
  obtain ⟨cs', e1, e2, e3⟩ := key data hmax (List.replicate n 0) (by simp)
  refine ⟨⟨min, max, (max - min) / (n : Rat), List.replicate n 0⟩, _, ?_, e1, e2, ?_⟩
  · unfold Hist.make
    rw [if_neg (by grind)]
  · intro i hi
    rw [e3 i (by simpa using hi)]
    simp

/-- The largest value of the interval is always written behind the last bin. -/
theorem C113_histogram_refuted (min max : Rat) (n : Nat) (h : min < max) (hn : 0 < n) (pre post : List (Rat × Nat)) (c : Nat)
    (hpre : ∀ d ∈ pre, d.1 ≠ max) :
    ∃ h0, Hist.make min max n = some h0 ∧ h0.addAll (pre ++ (max, c) :: post) = none := by
  obtain ⟨h0, h1, e0, e1, e2, _⟩ := C113_histogram_partial min max n h hn pre hpre
  refine ⟨h0, e0, ?_⟩
  have hinv : ∀ (data : List (Rat × Nat)) (a b : Hist), a.addAll data = some b → b.min = a.min ∧ b.max = a.max ∧ b.binSize = a.binSize := by
    intro data
    induction data with
    | nil => intro a b hab; simp only [Hist.addAll, List.foldlM_nil] at hab; injection hab with hab; subst hab; exact ⟨rfl, rfl, rfl⟩
    | cons d data ih =>
      intro a b hab
      simp only [Hist.addAll, List.foldlM_cons] at hab
      cases hd : a.add d.1 d.2 with
      | none => rw [hd] at hab; cases hab
      | some a' =>
        rw [hd] at hab
        have hb := ih a' b hab
        have ha : a'.min = a.min ∧ a'.max = a.max ∧ a'.binSize = a.binSize := by
          unfold Hist.add at hd
          split at hd
          · injection hd with hd; subst hd; exact ⟨rfl, rfl, rfl⟩
          · split at hd
            · injection hd with hd; subst hd; exact ⟨rfl, rfl, rfl⟩
            · dsimp only at hd
              split at hd
              · injection hd with hd; subst hd; exact ⟨rfl, rfl, rfl⟩
              · cases hd
        exact ⟨hb.1.trans ha.1, hb.2.1.trans ha.2.1, hb.2.2.trans ha.2.2⟩
  have hb := binSize_pos h hn
  have e0' : h0 = ⟨min, max, (max - min) / (n : Rat), List.replicate n 0⟩ := by
    unfold Hist.make at e0
    rw [if_neg (by grind)] at e0
    injection e0 with e0; exact e0.symm
  obtain ⟨i1, i2, i3⟩ := hinv _ _ _ e1
  subst e0'
  have hadd : h1.add max c = none := by
    unfold Hist.add
    rw [i1, i2, i3]
    dsimp only
    rw [if_neg (by grind), if_neg (by grind)]
    have : (max - min) / ((max - min) / (n : Rat)) = ((n : Int) : Rat) := by
      have := n_binSize (min := min) (max := max) hn
      have hne : max - min ≠ 0 := by grind
      have : ((n : Int) : Rat) = (n : Rat) := rfl
      rw [this]
      have : (n : Rat) ≠ 0 := by
        have := Rat.natCast_pos.2 hn
        grind
      grind
    rw [this, Rat.floor_intCast, Int.toNat_natCast, List.getElem?_eq_none (by omega)]
  have e1' : pre.foldlM (fun h d => h.add d.1 d.2) (⟨min, max, (max - min) / (n : Rat), List.replicate n 0⟩ : Hist) = some h1 := e1
  simp only [Hist.addAll, List.foldlM_append, List.foldlM_cons, e1', Option.bind_eq_bind, Option.bind_some, hadd, Option.bind_none]

/-- Two statistics with the same two fields, output in different orders. -/
example : csv [⟨[(5, 10), (6, 20)]⟩, (⟨[(6, 30), (5, 40)]⟩ : Stat Nat)] = ([5, 6], [[10, 20], [40, 30]]) := by decide

/-- Three fields whose values come in the order 3, 1, 2. -/
example : csv [⟨[(5, 10), (6, 20), (7, 30)]⟩, (⟨[(7, 1), (5, 2), (6, 3)]⟩ : Stat Nat)] =
    ([5, 6, 7], [[10, 20, 30], [2, 3, 1]]) := by decide

/-- In a group in which the statistics have different fields, rows do not have the values of their
own statistic: here an accumulator (field 0), a histogram (fields 1, 2 and 3) and another
accumulator.  The row of the histogram is empty, and its values stand in the row of the accumulator
that follows. -/
theorem C113_rows_refuted (a b c d e : V) :
    csv [⟨[(0, a)]⟩, ⟨[(1, b), (2, c), (3, d)]⟩, ⟨[(0, e)]⟩] = ([0, 1, 2, 3], [[a], [], [e, b, c, d]]) := rfl

/-- Four bins from 0 to 8; 9 is ignored, 2 is in the second bin. -/
example : ∃ h0 h1, Hist.make 0 8 4 = some h0 ∧ h0.addAll [(1, 1), (2, 3), (7, 1), (9, 5), (3, 1)] = some h1 ∧
    h1.counts = [1, 4, 0, 1] := by
  refine ⟨⟨0, 8, 2, [0, 0, 0, 0]⟩, ⟨0, 8, 2, [1, 4, 0, 1]⟩, by decide +kernel, by decide +kernel, rfl⟩

end SST.Stats
