import Verif.Os.Globals
/-
C90: the global variables of simulated processes.
-/
set_option autoImplicit false
namespace SST.Os

/-! ### Specification -/

/-- A declared variable: where it is, how many bytes it has, its initial value if any. -/
structure GVar where
  off : Nat
  size : Nat
  init : Option (List Nat)
deriving DecidableEq

/-- Byte `j` of variable `x` in a segment. -/
def GVar.byte (x : GVar) (b : Buf) (j : Nat) : Option (Option Nat) := b[x.off + j]?

/-- The histories of a program whose applications do not set the size of the segment, that starts a process while its
segment still has the size of the others, and gives late values to variables only. The list: the variables so far. -/
inductive GRun : GCtx → List GVar → Prop
  | init : GRun .init []
  | declare {s s' : GCtx} {vars : List GVar} {size o : Nat} {init : Option (List Nat)} (h : GRun s vars) (h0 : 0 < size)
      (hi : ∀ bytes, init = some bytes → bytes.length ≤ size) (hs : s.declare size init = .ok (o, s')) : GRun s' (vars ++ [⟨o, size, init⟩])
  | segment {s s' : GCtx} {vars : List GVar} {id : Nat} (h : GRun s vars) (hf : ∀ p ∈ s.segs, p.1 ≠ id) (hs : s.newSegment id none = .ok s') : GRun s' vars
  | activate {s s' : GCtx} {vars : List GVar} {id : Nat} (h : GRun s vars) (hl : ∀ b, s.seg id = some b → b.length = s.alloc) (hs : s.activate id = .ok s') :
      GRun s' vars
  | deactivate {s : GCtx} {vars : List GVar} {id : Nat} (h : GRun s vars) : GRun (s.deactivate id) vars
  | initSpace {s s' : GCtx} {vars : List GVar} {bytes : List Nat} {x : GVar} (h : GRun s vars) (hx : x ∈ vars) (hb : bytes.length ≤ x.size)
      (hs : s.initSpace bytes x.off = .ok s') : GRun s' vars

/-! ### Lemmas -/

theorem write_ok {b b' : Buf} {o : Nat} {bs : Buf} (h : b.write o bs = .ok b') :
    o + bs.length ≤ b.length ∧ b'.length = b.length ∧ ∀ i : Nat, b'[i]? = if o ≤ i ∧ i < o + bs.length then bs[i - o]? else b[i]? := by
  unfold Buf.write at h
  split at h
  · rename_i hl
    cases h
    have ht : (b.take o).length = o := by rw [List.length_take]; omega
    refine ⟨hl, ?_, ?_⟩
    · simp only [List.length_append, List.length_take, List.length_drop]; omega
    · intro i
      by_cases h1 : i < o
      · rw [if_neg (by omega), List.append_assoc, List.getElem?_append_left (by omega), List.getElem?_take_of_lt h1]
      · by_cases h2 : i < o + bs.length
        · rw [if_pos ⟨by omega, h2⟩, List.append_assoc, List.getElem?_append_right (by omega), ht, List.getElem?_append_left (by omega)]
        · rw [if_neg (by omega), List.getElem?_append_right (by simp only [List.length_append]; omega), List.getElem?_drop]
          congr 1
          simp only [List.length_append, ht]
          omega
  · cases h

theorem write_exists {b : Buf} {o : Nat} {bs : Buf} (h : o + bs.length ≤ b.length) : ∃ b', b.write o bs = .ok b' := by
  unfold Buf.write
  rw [if_pos h]
  exact ⟨_, rfl⟩

theorem increment_spec (size : Nat) : size ≤ increment size ∧ increment size % 4 = 0 ∧ increment size < size + 4 := by
  unfold increment
  split <;> omega

theorem grow_spec {need alloc : Nat} (h : 0 < alloc) : ∃ a, grow need alloc = some a ∧ need ≤ a ∧ alloc ≤ a ∧ (need ≤ alloc → a = alloc) := by
  fun_induction grow need alloc with
  | case1 alloc hle => exact ⟨alloc, rfl, hle, Nat.le_refl _, fun _ => rfl⟩
  | case2 => omega
  | case3 alloc h1 h2 ih =>
    obtain ⟨a, e, e1, e2, _⟩ := ih (by omega)
    exact ⟨a, e, e1, by omega, fun h => absurd h h1⟩

/-- The blocks that the initial values fill, one after the other. -/
def Blocks (inits : List (Nat × List Nat)) : Prop := inits.Pairwise fun p q => p.1 + p.2.length ≤ q.1

theorem callInits_spec (inits : List (Nat × List Nat)) : ∀ (b : Buf), Blocks inits → (∀ p ∈ inits, p.1 + p.2.length ≤ b.length) →
    ∃ b', callInits inits b = .ok b' ∧ b'.length = b.length ∧
      (∀ p ∈ inits, ∀ j (hj : j < p.2.length), b'[p.1 + j]? = some (some p.2[j])) ∧
      ∀ i : Nat, (∀ p ∈ inits, ¬ (p.1 ≤ i ∧ i < p.1 + p.2.length)) → b'[i]? = b[i]? := by
  induction inits with
  | nil => intro b _ _; exact ⟨b, rfl, rfl, (fun p h => nomatch h), fun _ _ => rfl⟩
  | cons p ps ih =>
    intro b hb hl
    unfold Blocks at hb
    rw [List.pairwise_cons] at hb
    obtain ⟨b1, e1⟩ := write_exists (b := b) (o := p.1) (bs := p.2.map some) (by rw [List.length_map]; exact hl p (List.mem_cons_self ..))
    obtain ⟨w1, w2, w3⟩ := write_ok e1
    rw [List.length_map] at w1 w3
    obtain ⟨b', e2, e3, e4, e5⟩ := ih b1 hb.2 (fun q hq => by rw [w2]; exact hl q (List.mem_cons_of_mem _ hq))
    refine ⟨b', ?_, e3.trans w2, ?_, ?_⟩
    · unfold callInits at e2 ⊢
      rw [List.foldlM_cons, e1]
      exact e2
    · intro q hq j hj
      rcases List.mem_cons.1 hq with rfl | hq
      · rw [e5 (q.1 + j) (fun r hr => by have := hb.1 r hr; omega), w3, if_pos ⟨by omega, by omega⟩]
        simp [hj]
      · exact e4 q hq j hj
    · intro i hi
      rw [e5 i (fun q hq => hi q (List.mem_cons_of_mem _ hq)), w3, if_neg (hi p (List.mem_cons_self ..))]

theorem setInit_last (o : Nat) (bytes : List Nat) (l : List (Nat × List Nat)) (h : ∀ p ∈ l, p.1 < o) : setInit o bytes l = l ++ [(o, bytes)] := by
  induction l with
  | nil => rfl
  | cons p ps ih =>
    have := h p (List.mem_cons_self ..)
    obtain ⟨o', b'⟩ := p
    simp only at this
    rw [setInit, if_neg (by omega), if_neg (by omega), ih (fun q hq => h q (List.mem_cons_of_mem _ hq))]
    rfl

/-- The initial values of the declared variables. -/
def initsOf (vars : List GVar) : List (Nat × List Nat) := vars.filterMap fun x => x.init.map fun b => (x.off, b)

/-- What holds after every history. -/
structure GInv (s : GCtx) (vars : List GVar) : Prop where
  pos : 0 < s.alloc
  fits : s.off ≤ s.alloc
  aligned : s.off % 4 = 0
  image : (s.image = none ∧ s.off = 0) ∨ ∃ b, s.image = some b ∧ b.length = s.alloc
  ids : (s.segs.map (·.1)).Nodup
  active : ∀ p ∈ s.segs, p.1 ∈ s.active → p.2.length = s.alloc
  isSeg : ∀ id ∈ s.active, ∃ p ∈ s.segs, p.1 = id
  vars_apart : vars.Pairwise fun x y => x.off + x.size ≤ y.off
  vars_in : ∀ x ∈ vars, x.off % 4 = 0 ∧ 0 < x.size ∧ x.off + x.size ≤ s.off ∧ ∀ b, x.init = some b → b.length ≤ x.size
  inits : s.inits = initsOf vars

theorem ginv_blocks {s : GCtx} {vars : List GVar} (h : GInv s vars) : Blocks s.inits ∧ ∀ p ∈ s.inits, p.1 + p.2.length ≤ s.off := by
  rw [h.inits]
  unfold Blocks initsOf
  constructor
  · rw [List.pairwise_filterMap]
    refine List.Pairwise.imp_of_mem ?_ h.vars_apart
    intro x y hx hy hxy p hp q hq
    simp only [Option.map_eq_some_iff] at hp hq
    obtain ⟨bp, e1, rfl⟩ := hp
    obtain ⟨bq, e2, rfl⟩ := hq
    have := (h.vars_in x hx).2.2.2 bp e1
    simp only
    omega
  · intro p hp
    obtain ⟨x, hx, hp⟩ := List.mem_filterMap.1 hp
    simp only [Option.map_eq_some_iff] at hp
    obtain ⟨bp, e1, rfl⟩ := hp
    obtain ⟨_, _, h3, h4⟩ := h.vars_in x hx
    have := h4 bp e1
    simp only
    omega

/-- What `append` does when the invariant holds. -/
theorem append_spec {s : GCtx} {vars : List GVar} (h : GInv s vars) (size : Nat) :
    (s.append size = .error .abort ∧ s.active ≠ [] ∧ s.alloc < increment size + s.off) ∨
    ∃ s', s.append size = .ok (s.off, s') ∧ s'.off = s.off + increment size ∧ s'.off ≤ s'.alloc ∧ s.alloc ≤ s'.alloc ∧
      s'.inits = s.inits ∧ s'.segs = s.segs ∧ s'.active = s.active ∧ (s.active ≠ [] → s'.alloc = s.alloc) ∧
      ∃ b, s'.image = some b ∧ b.length = s'.alloc ∧ ∀ old, s.image = some old → ∀ i < s.off, b[i]? = old[i]? := by
  obtain ⟨a, ea, ha1, ha2, ha3⟩ := grow_spec (need := increment size + s.off) h.pos
  unfold GCtx.append
  rw [ea]
  simp only
  by_cases hr : s.alloc < increment size + s.off
  · rw [decide_eq_true hr]
    by_cases hact : s.active = []
    · right
      rw [hact]
      simp only [List.isEmpty_nil, Bool.not_true, Bool.and_false, Bool.false_eq_true, if_false, if_true]
      rcases h.image with ⟨e, e0⟩ | ⟨old, e, el⟩
      · rw [e]
        exact ⟨_, rfl, rfl, by simp only; omega, ha2, rfl, rfl, rfl, fun hne => absurd rfl hne, _, rfl, by simp [fresh], fun _ h => nomatch h⟩
      · rw [e]
        simp only
        have er : old.read s.off = .ok (old.take s.off) := by unfold Buf.read; rw [if_pos (by have := h.fits; omega)]
        have hlt : (old.take s.off).length = s.off := by rw [List.length_take]; have := h.fits; omega
        obtain ⟨b, eb⟩ := write_exists (b := fresh a) (o := 0) (bs := old.take s.off) (by rw [hlt]; simp only [fresh, List.length_replicate]; omega)
        obtain ⟨_, w2, w3⟩ := write_ok eb
        rw [er]
        refine ⟨{ s with off := s.off + increment size, alloc := a, image := some b }, ?_, rfl, by simp only; omega, ha2, rfl, rfl, hact, fun hne => absurd rfl hne, b, rfl, ?_, ?_⟩
        · simp only [bind, Except.bind, eb, hact]
        · rw [w2]; simp [fresh]
        · intro old' e' i hi
          cases e'
          rw [w3, hlt, if_pos ⟨by omega, by omega⟩, Nat.sub_zero, List.getElem?_take_of_lt hi]
    · left
      have : s.active.isEmpty = false := by cases hh : s.active with | nil => exact absurd hh hact | cons => rfl
      rw [this]
      exact ⟨rfl, hact, hr⟩
  · right
    rw [decide_eq_false hr]
    have ea : a = s.alloc := ha3 (by omega)
    subst ea
    simp only [Bool.false_and, Bool.false_eq_true, if_false]
    rcases h.image with ⟨e, e0⟩ | ⟨old, e, el⟩
    · rw [e]
      exact ⟨_, rfl, rfl, by simp only; omega, Nat.le_refl _, rfl, rfl, rfl, fun _ => rfl, _, rfl, by simp [fresh], fun _ h => nomatch h⟩
    · rw [e]
      exact ⟨_, rfl, rfl, by simp only; omega, Nat.le_refl _, rfl, rfl, rfl, fun _ => rfl, old, rfl, el, fun old' e' i _ => by cases e'; rfl⟩

theorem declare_spec {s : GCtx} {vars : List GVar} (h : GInv s vars) (size : Nat) (init : Option (List Nat)) (h0 : 0 < size)
    (hi : ∀ bytes, init = some bytes → bytes.length ≤ size) :
    (s.declare size init = .error .abort ∧ s.active ≠ [] ∧ s.alloc < increment size + s.off) ∨
    ∃ s', s.declare size init = .ok (s.off, s') ∧ GInv s' (vars ++ [⟨s.off, size, init⟩]) := by
  rcases append_spec h size with ⟨e, e'⟩ | ⟨s1, e, a1, a2, a3, a4, a5, a6, a7, b, a8, a9, _⟩
  · left
    unfold GCtx.declare
    rw [e]
    exact ⟨rfl, e'⟩
  · right
    have hinc := increment_spec size
    have hoff := h.aligned
    have hlt : ∀ p ∈ s1.inits, p.1 < s.off := by
      intro p hp
      rw [a4, h.inits] at hp
      obtain ⟨x, hx, hp⟩ := List.mem_filterMap.1 hp
      simp only [Option.map_eq_some_iff] at hp
      obtain ⟨bp, _, rfl⟩ := hp
      obtain ⟨_, h2, h3, _⟩ := h.vars_in x hx
      simp only
      omega
    have base : ∀ (l : List (Nat × List Nat)), l = initsOf (vars ++ [⟨s.off, size, init⟩]) → GInv { s1 with inits := l } (vars ++ [⟨s.off, size, init⟩]) := by
      intro l hl
      refine ⟨by have := h.pos; simp only; omega, a2, by simp only; omega, .inr ⟨b, a8, a9⟩, by rw [a5]; exact h.ids, ?_, ?_, ?_, ?_, hl⟩
      · intro p hp hact
        simp only at hp hact ⊢
        rw [a5] at hp
        rw [a6] at hact
        rw [a7 (List.ne_nil_of_mem hact)]
        exact h.active p hp hact
      · simp only [a5, a6]; exact h.isSeg
      · rw [List.pairwise_append]
        refine ⟨h.vars_apart, List.pairwise_singleton .., ?_⟩
        intro x hx y hy
        rw [List.mem_singleton] at hy
        subst hy
        exact (h.vars_in x hx).2.2.1
      · intro x hx
        rcases List.mem_append.1 hx with hx | hx
        · obtain ⟨h1, h2, h3, h4⟩ := h.vars_in x hx
          exact ⟨h1, h2, by simp only; omega, h4⟩
        · rw [List.mem_singleton] at hx
          subst hx
          exact ⟨hoff, h0, by simp only; omega, hi⟩
    cases init with
    | none =>
      refine ⟨s1, ?_, ?_⟩
      · unfold GCtx.declare
        rw [e]
        rfl
      · refine base s1.inits ?_
        rw [a4, h.inits]
        simp [initsOf]
    | some bytes =>
      refine ⟨{ s1 with inits := setInit s.off bytes s1.inits }, ?_, base _ ?_⟩
      · unfold GCtx.declare
        rw [e]
        rfl
      · rw [setInit_last _ _ _ hlt, a4, h.inits]
        simp [initsOf]

theorem seg_mem {s : GCtx} {id : Nat} {b : Buf} (h : s.seg id = some b) : (id, b) ∈ s.segs := by
  unfold GCtx.seg at h
  rw [Option.map_eq_some_iff] at h
  obtain ⟨p, hp, rfl⟩ := h
  have h1 := List.find?_some hp
  have h2 := List.mem_of_find?_eq_some hp
  simp only [decide_eq_true_eq] at h1
  rw [← h1]
  exact h2

theorem mem_seg {s : GCtx} (hn : (s.segs.map (·.1)).Nodup) {p : Nat × Buf} (h : p ∈ s.segs) : s.seg p.1 = some p.2 := by
  unfold GCtx.seg
  generalize s.segs = l at *
  induction l with
  | nil => cases h
  | cons q qs ih =>
    rw [List.map_cons, List.nodup_cons] at hn
    rw [List.find?_cons]
    rcases List.mem_cons.1 h with rfl | h
    · simp
    · have hne : q.1 ≠ p.1 := fun e => hn.1 (e ▸ List.mem_map_of_mem (f := (·.1)) h)
      rw [decide_eq_false hne]
      exact ih hn.2 h

theorem newSegment_spec {s : GCtx} {vars : List GVar} (h : GInv s vars) (id : Nat) (hf : ∀ p ∈ s.segs, p.1 ≠ id) :
    ∃ s' b, s.newSegment id none = .ok s' ∧ s' = { s with segs := (id, b) :: s.segs } ∧ b.length = s.alloc ∧
      (∀ i < s.off, b[i]? = (s.image.getD [])[i]?) ∧ GInv s' vars := by
  have hil : s.off ≤ (s.image.getD []).length := by
    rcases h.image with ⟨e, e0⟩ | ⟨b, e, el⟩
    · rw [e0]; exact Nat.zero_le _
    · rw [e]; simp only [Option.getD_some]; have := h.fits; omega
  have hlt : ((s.image.getD []).take s.off).length = s.off := by rw [List.length_take]; omega
  obtain ⟨b, eb⟩ := write_exists (b := fresh s.alloc) (o := 0) (bs := (s.image.getD []).take s.off)
    (by rw [hlt]; simp only [fresh, List.length_replicate]; have := h.fits; omega)
  obtain ⟨_, w2, w3⟩ := write_ok eb
  have hbl : b.length = s.alloc := by rw [w2]; simp [fresh]
  refine ⟨_, b, ?_, rfl, hbl, ?_, ?_⟩
  · unfold GCtx.newSegment
    simp only [Option.getD_none]
    rw [if_neg (by have := h.pos; omega)]
    unfold Buf.read
    rw [if_pos hil]
    simp only [bind, Except.bind, eb]
  · intro i hi
    rw [w3, hlt, if_pos ⟨by omega, by omega⟩, Nat.sub_zero, List.getElem?_take_of_lt hi]
  · refine ⟨h.pos, h.fits, h.aligned, h.image, ?_, ?_, ?_, h.vars_apart, h.vars_in, h.inits⟩
    · simp only [List.map_cons, List.nodup_cons]
      refine ⟨?_, h.ids⟩
      intro hm
      obtain ⟨p, hp, e⟩ := List.mem_map.1 hm
      exact hf p hp e
    · intro p hp hact
      rcases List.mem_cons.1 hp with rfl | hp
      · exact hbl
      · exact h.active p hp hact
    · intro i hi
      obtain ⟨p, hp, e⟩ := h.isSeg i hi
      exact ⟨p, List.mem_cons_of_mem _ hp, e⟩

theorem setSeg_ids (id : Nat) (b : Buf) (l : List (Nat × Buf)) : (setSeg id b l).map (·.1) = l.map (·.1) := by
  unfold setSeg
  rw [List.map_map]
  apply List.map_congr_left
  intro p _
  simp only [Function.comp]
  split
  · rename_i h; exact h.symm
  · rfl

theorem activate_spec {s : GCtx} {vars : List GVar} (h : GInv s vars) (id : Nat) (hl : ∀ b, s.seg id = some b → b.length = s.alloc) :
    ∃ s', s.activate id = .ok s' ∧ GInv s' vars ∧
      ∀ b, s.seg id = some b → id ∈ s'.active ∧ ∃ b', s'.seg id = some b' ∧ b'.length = b.length ∧
        (∀ p ∈ s.inits, ∀ j (hj : j < p.2.length), b'[p.1 + j]? = some (some p.2[j])) ∧
        (∀ i : Nat, (∀ p ∈ s.inits, ¬ (p.1 ≤ i ∧ i < p.1 + p.2.length)) → b'[i]? = b[i]?) ∧
        ∀ id', id' ≠ id → s'.seg id' = s.seg id' := by
  cases hs : s.seg id with
  | none =>
    refine ⟨s, ?_, h, fun b e => nomatch e⟩
    unfold GCtx.activate
    rw [hs]
  | some b =>
    obtain ⟨hb1, hb2⟩ := ginv_blocks h
    have hbl := hl b hs
    obtain ⟨b', e1, e2, e3, e4⟩ := callInits_spec s.inits b hb1 (fun p hp => by have := hb2 p hp; have := h.fits; omega)
    have hmem := seg_mem hs
    have hmap : (setSeg id b' s.segs).map (·.1) = s.segs.map (·.1) := setSeg_ids ..
    let s' : GCtx := { s with active := if id ∈ s.active then s.active else id :: s.active, segs := setSeg id b' s.segs }
    have hact : ∀ x, x ∈ s'.active ↔ x = id ∨ x ∈ s.active := by
      intro x
      show x ∈ (if id ∈ s.active then s.active else id :: s.active) ↔ _
      split
      · rename_i hm
        constructor
        · exact Or.inr
        · rintro (rfl | h)
          · exact hm
          · exact h
      · exact List.mem_cons
    have hinv : GInv s' vars := by
      refine ⟨h.pos, h.fits, h.aligned, h.image, by show ((setSeg id b' s.segs).map (·.1)).Nodup; rw [hmap]; exact h.ids, ?_, ?_, h.vars_apart, h.vars_in, h.inits⟩
      · intro p hp ha
        obtain ⟨q, hq, rfl⟩ := List.mem_map.1 (show p ∈ setSeg id b' s.segs from hp)
        rw [hact] at ha
        split
        · rw [e2, hbl]
        · rename_i hne
          rw [if_neg hne] at ha
          exact h.active q hq (ha.resolve_left hne)
      · intro i hi
        rw [hact] at hi
        have : i ∈ s.segs.map (·.1) := by
          rcases hi with rfl | hi
          · exact List.mem_map_of_mem (f := (·.1)) hmem
          · obtain ⟨p, hp, e⟩ := h.isSeg i hi
            exact e ▸ List.mem_map_of_mem (f := (·.1)) hp
        rw [← hmap] at this
        obtain ⟨p, hp, e⟩ := List.mem_map.1 this
        exact ⟨p, hp, e⟩
    refine ⟨s', ?_, hinv, ?_⟩
    · unfold GCtx.activate
      rw [hs]
      simp only [bind, Except.bind, e1]
      rfl
    · intro b0 eb0
      have := Option.some.inj eb0
      subst this
      refine ⟨(hact id).2 (.inl rfl), b', ?_, e2, e3, e4, ?_⟩
      · have : (id, b') ∈ s'.segs := List.mem_map.2 ⟨(id, b), hmem, by simp⟩
        exact mem_seg hinv.ids this
      · intro id' hne
        show ((setSeg id b' s.segs).find? fun p => p.1 = id').map (·.2) = (s.segs.find? fun p => p.1 = id').map (·.2)
        generalize s.segs = l
        induction l with
        | nil => rfl
        | cons q qs ih =>
          show (((if q.1 = id then (id, b') else q) :: setSeg id b' qs).find? _).map _ = _
          rw [List.find?_cons, List.find?_cons]
          by_cases hq : q.1 = id
          · rw [if_pos hq, decide_eq_false (by simp only; exact fun e => hne e.symm), decide_eq_false (by rw [hq]; exact fun e => hne e.symm)]
            exact ih
          · rw [if_neg hq]
            split
            · rfl
            · exact ih

theorem writeActive_spec (bytes : List Nat) (o n : Nat) (active : List Nat) (l : List (Nat × Buf)) (hn : o + bytes.length ≤ n)
    (h : ∀ p ∈ l, p.1 ∈ active → p.2.length = n) :
    ∃ l', writeActive bytes o active l = .ok l' ∧ l'.map (·.1) = l.map (·.1) ∧ (∀ p ∈ l', p.1 ∈ active → p.2.length = n) ∧
      ∀ p' ∈ l', ∃ p ∈ l, p.1 = p'.1 ∧ (p.1 ∈ active → ∀ i : Nat, p'.2[i]? = if o ≤ i ∧ i < o + bytes.length then (bytes.map some)[i - o]? else p.2[i]?) ∧
        (p.1 ∉ active → p'.2 = p.2) := by
  induction l with
  | nil => exact ⟨[], rfl, rfl, (fun p h => nomatch h), fun p h => nomatch h⟩
  | cons q qs ih =>
    obtain ⟨l', e1, e2, e3, e4⟩ := ih (fun p hp => h p (List.mem_cons_of_mem _ hp))
    obtain ⟨id, b⟩ := q
    by_cases ha : id ∈ active
    · have hlen := h (id, b) (List.mem_cons_self ..) ha
      simp only at hlen
      obtain ⟨b', eb⟩ := write_exists (b := b) (o := o) (bs := bytes.map some) (by rw [List.length_map]; omega)
      obtain ⟨_, w2, w3⟩ := write_ok eb
      rw [List.length_map] at w3
      refine ⟨(id, b') :: l', ?_, by simp [e2], ?_, ?_⟩
      · unfold writeActive
        rw [if_pos ha, eb]
        simp only [bind, Except.bind, e1]
      · intro p hp hact
        rcases List.mem_cons.1 hp with rfl | hp
        · simp only; omega
        · exact e3 p hp hact
      · intro p' hp'
        rcases List.mem_cons.1 hp' with rfl | hp'
        · exact ⟨(id, b), List.mem_cons_self .., rfl, fun _ => w3, fun hn => absurd ha hn⟩
        · obtain ⟨p, hp, r⟩ := e4 p' hp'
          exact ⟨p, List.mem_cons_of_mem _ hp, r⟩
    · refine ⟨(id, b) :: l', ?_, by simp [e2], ?_, ?_⟩
      · unfold writeActive
        rw [if_neg ha]
        simp only [bind, Except.bind, e1]
      · intro p hp hact
        rcases List.mem_cons.1 hp with rfl | hp
        · exact absurd hact ha
        · exact e3 p hp hact
      · intro p' hp'
        rcases List.mem_cons.1 hp' with rfl | hp'
        · exact ⟨(id, b), List.mem_cons_self .., rfl, fun h => absurd h ha, fun _ => rfl⟩
        · obtain ⟨p, hp, r⟩ := e4 p' hp'
          exact ⟨p, List.mem_cons_of_mem _ hp, r⟩

theorem initSpace_spec {s : GCtx} {vars : List GVar} (h : GInv s vars) (bytes : List Nat) (x : GVar) (hx : x ∈ vars) (hb : bytes.length ≤ x.size) :
    ∃ s', s.initSpace bytes x.off = .ok s' ∧ GInv s' vars ∧ s'.active = s.active ∧
      (∀ p' ∈ s'.segs, ∃ p ∈ s.segs, p.1 = p'.1 ∧
        (p.1 ∈ s.active → ∀ i : Nat, p'.2[i]? = if x.off ≤ i ∧ i < x.off + bytes.length then (bytes.map some)[i - x.off]? else p.2[i]?) ∧
        (p.1 ∉ s.active → p'.2 = p.2)) ∧
      ∃ b b', s.image = some b ∧ s'.image = some b' ∧ ∀ i : Nat, b'[i]? = if x.off ≤ i ∧ i < x.off + bytes.length then (bytes.map some)[i - x.off]? else b[i]? := by
  obtain ⟨_, hx2, hx3, _⟩ := h.vars_in x hx
  have hf := h.fits
  obtain ⟨l', e1, e2, e3, e4⟩ := writeActive_spec bytes x.off s.alloc s.active s.segs (by omega) h.active
  rcases h.image with ⟨_, e0⟩ | ⟨b, eb, el⟩
  · omega
  · obtain ⟨b', ew⟩ := write_exists (b := b) (o := x.off) (bs := bytes.map some) (by rw [List.length_map]; omega)
    obtain ⟨_, w2, w3⟩ := write_ok ew
    rw [List.length_map] at w3
    refine ⟨{ s with segs := l', image := some b' }, ?_, ?_, rfl, e4, b, b', eb, rfl, w3⟩
    · unfold GCtx.initSpace
      rw [e1, eb]
      simp only [bind, Except.bind, Option.getD_some, ew]
    · refine ⟨h.pos, h.fits, h.aligned, .inr ⟨b', rfl, w2.trans el⟩, by simp only [e2]; exact h.ids, e3, ?_, h.vars_apart, h.vars_in, h.inits⟩
      intro id hid
      obtain ⟨p, hp, e⟩ := h.isSeg id hid
      have : id ∈ l'.map (·.1) := by rw [e2]; exact e ▸ List.mem_map_of_mem (f := (·.1)) hp
      obtain ⟨q, hq, e⟩ := List.mem_map.1 this
      exact ⟨q, hq, e⟩

theorem ginv {s : GCtx} {vars : List GVar} (h : GRun s vars) : GInv s vars := by
  induction h with
  | init =>
    exact ⟨by decide, by decide, by decide, .inl ⟨rfl, rfl⟩, List.nodup_nil, (fun p h => nomatch h), (fun p h => nomatch h), List.Pairwise.nil,
      (fun p h => nomatch h), rfl⟩
  | @declare s s' vars size o init h h0 hi hs ih =>
    rcases declare_spec ih size init h0 hi with ⟨e, _⟩ | ⟨s1, e, hv⟩
    · rw [e] at hs; cases hs
    · rw [e] at hs
      cases hs
      exact hv
  | @segment s s' vars id h hf hs ih =>
    obtain ⟨s1, b, e, _, _, _, hv⟩ := newSegment_spec ih id hf
    rw [e] at hs
    cases hs
    exact hv
  | @activate s s' vars id h hl hs ih =>
    obtain ⟨s1, e, hv, _⟩ := activate_spec ih id hl
    rw [e] at hs
    cases hs
    exact hv
  | @deactivate s vars id h ih =>
    refine ⟨ih.pos, ih.fits, ih.aligned, ih.image, ih.ids, ?_, ?_, ih.vars_apart, ih.vars_in, ih.inits⟩
    · intro p hp ha
      exact ih.active p hp (List.mem_of_mem_erase ha)
    · intro i hi
      exact ih.isSeg i (List.mem_of_mem_erase hi)
  | @initSpace s s' vars bytes x h hx hb hs ih =>
    obtain ⟨s1, e, hv, _⟩ := initSpace_spec ih bytes x hx hb
    rw [e] at hs
    cases hs
    exact hv

/-! ### C90 -/

/-- **C90**: after every history, variables start at multiples of 4, do not overlap and lie within the segment of
every running process. -/
theorem C90_offsets (s : GCtx) (vars : List GVar) (h : GRun s vars) :
    vars.Pairwise (fun x y => x.off + x.size ≤ y.off) ∧ (∀ x ∈ vars, x.off % 4 = 0) ∧
    ∀ id ∈ s.active, ∃ b, s.seg id = some b ∧ ∀ x ∈ vars, x.off + x.size ≤ b.length := by
  have hi := ginv h
  refine ⟨hi.vars_apart, fun x hx => (hi.vars_in x hx).1, ?_⟩
  intro id hid
  obtain ⟨p, hp, rfl⟩ := hi.isSeg id hid
  refine ⟨p.2, mem_seg hi.ids hp, ?_⟩
  intro x hx
  have h1 := hi.active p hp hid
  have h2 := (hi.vars_in x hx).2.2.1
  have h3 := hi.fits
  omega

/-- **C90**: when a process starts, each variable with an initial value has it, the other bytes are those its segment
had, and the variables of the other processes do not change. -/
theorem C90_start (s s' : GCtx) (vars : List GVar) (h : GRun s vars) (id : Nat) (b : Buf) (hb : s.seg id = some b) (hl : b.length = s.alloc)
    (hs : s.activate id = .ok s') :
    ∃ b', s'.seg id = some b' ∧ id ∈ s'.active ∧
      (∀ x ∈ vars, ∀ bytes, x.init = some bytes → ∀ j (hj : j < bytes.length), x.byte b' j = some (some bytes[j])) ∧
      (∀ x ∈ vars, x.init = none → ∀ j < x.size, x.byte b' j = x.byte b j) ∧
      ∀ id', id' ≠ id → s'.seg id' = s.seg id' := by
  have hi := ginv h
  obtain ⟨s1, e, _, hr⟩ := activate_spec hi id (fun b' e => by rw [hb] at e; cases e; exact hl)
  rw [e] at hs
  cases hs
  obtain ⟨r1, b', r2, r3, r4, r5, r6⟩ := hr b hb
  refine ⟨b', r2, r1, ?_, ?_, r6⟩
  · intro x hx bytes hx' j hj
    exact r4 (x.off, bytes) (by rw [hi.inits]; exact List.mem_filterMap.2 ⟨x, hx, by simp [hx']⟩) j hj
  · intro x hx hx' j hj
    apply r5
    intro p hp
    rw [hi.inits] at hp
    obtain ⟨y, hy, hp⟩ := List.mem_filterMap.1 hp
    simp only [Option.map_eq_some_iff] at hp
    obtain ⟨bp, e1, rfl⟩ := hp
    have hyl := (hi.vars_in y hy).2.2.2 bp e1
    obtain ⟨i1, h1, rfl⟩ := List.mem_iff_getElem.1 hx
    obtain ⟨i2, h2, rfl⟩ := List.mem_iff_getElem.1 hy
    have hp := List.pairwise_iff_getElem.1 hi.vars_apart
    simp only
    rcases Nat.lt_trichotomy i1 i2 with hlt | heq | hlt
    · have := hp i1 i2 h1 h2 hlt; omega
    · subst heq
      rw [hx'] at e1
      cases e1
    · have := hp i2 i1 h2 h1 hlt; omega

/-- **C90**: a new process gets the values given to variables so far. -/
theorem C90_copy (s s' : GCtx) (vars : List GVar) (h : GRun s vars) (id : Nat) (hf : ∀ p ∈ s.segs, p.1 ≠ id) (hs : s.newSegment id none = .ok s') :
    ∃ b, s'.seg id = some b ∧ b.length = s'.alloc ∧ ∀ x ∈ vars, ∀ j < x.size, x.byte b j = x.byte (s.image.getD []) j := by
  have hi := ginv h
  obtain ⟨s1, b, e, e1, e2, e3, hv⟩ := newSegment_spec hi id hf
  rw [e] at hs
  cases hs
  subst e1
  refine ⟨b, mem_seg (p := (id, b)) hv.ids (List.mem_cons_self ..), e2, ?_⟩
  intro x hx j hj
  apply e3
  have := (hi.vars_in x hx).2.2.1
  omega

/-- **C90**: declaring more variables keeps the values given so far, also when the space for them moves. -/
theorem C90_moved (s s' : GCtx) (vars : List GVar) (h : GRun s vars) (size o : Nat) (hs : s.append size = .ok (o, s')) (x : GVar) (hx : x ∈ vars)
    (j : Nat) (hj : j < x.size) : x.byte (s'.image.getD []) j = x.byte (s.image.getD []) j := by
  have hi := ginv h
  rcases append_spec hi size with ⟨e, _⟩ | ⟨s1, e, _, _, _, _, _, _, _, b, eb, _, hb⟩
  · rw [e] at hs; cases hs
  · rw [e] at hs
    cases hs
    have hin := (hi.vars_in x hx).2.2.1
    rcases hi.image with ⟨_, e0⟩ | ⟨old, eo, _⟩
    · omega
    · rw [eb, eo]
      exact hb old eo _ (by omega)

/-- **C90**: a late value reaches every running process and every later one, and changes no other byte. -/
theorem C90_late (s s' : GCtx) (vars : List GVar) (h : GRun s vars) (x : GVar) (hx : x ∈ vars) (bytes : List Nat) (hb : bytes.length ≤ x.size)
    (hs : s.initSpace bytes x.off = .ok s') (id : Nat) (hid : id ∈ s.active) (b' : Buf) (hb' : s'.seg id = some b') :
    (∀ j (hj : j < bytes.length), x.byte b' j = some (some bytes[j]) ∧ x.byte (s'.image.getD []) j = some (some bytes[j])) ∧
    ∀ y ∈ vars, y ≠ x → ∀ b, s.seg id = some b → ∀ j < y.size, y.byte b' j = y.byte b j := by
  have hi := ginv h
  obtain ⟨s1, e, hv, ea, hsegs, im, im', e1, e2, e3⟩ := initSpace_spec hi bytes x hx hb
  rw [e] at hs
  cases hs
  obtain ⟨p, hp, hp1, hp2, _⟩ := hsegs _ (seg_mem hb')
  simp only at hp1 hp2
  rw [hp1] at hp2
  have hwr := hp2 hid
  constructor
  · intro j hj
    unfold GVar.byte
    rw [e2, Option.getD_some, hwr, e3, if_pos ⟨by omega, by omega⟩]
    simp [hj]
  · intro y hy hne b hb0 j hj
    have hpb : p.2 = b := by
      have := mem_seg hi.ids hp
      rw [hp1, hb0] at this
      exact (Option.some.inj this).symm
    unfold GVar.byte
    rw [hwr, hpb, if_neg]
    obtain ⟨i1, h1, rfl⟩ := List.mem_iff_getElem.1 hx
    obtain ⟨i2, h2, rfl⟩ := List.mem_iff_getElem.1 hy
    have hp := List.pairwise_iff_getElem.1 hi.vars_apart
    rcases Nat.lt_trichotomy i1 i2 with hlt | heq | hlt
    · have := hp i1 i2 h1 h2 hlt; omega
    · subst heq; exact absurd rfl hne
    · have := hp i2 i1 h2 h1 hlt; omega

/-- **C90**, partial: in these histories no operation reads or writes outside an allocation or hangs; the only failure
is the abort for a library that needs more space while processes run. What is missing: histories in which an
application sets the size of the segment, or starts with a segment that was made before the space grew. -/
theorem C90_safe_partial (s : GCtx) (vars : List GVar) (h : GRun s vars) :
    (∀ size init, 0 < size → (∀ bytes, init = some bytes → bytes.length ≤ size) →
      (∃ o s', s.declare size init = .ok (o, s')) ∨ (s.declare size init = .error .abort ∧ s.active ≠ [] ∧ s.alloc < increment size + s.off)) ∧
    (∀ id, (∀ p ∈ s.segs, p.1 ≠ id) → ∃ s', s.newSegment id none = .ok s') ∧
    (∀ id, (∀ b, s.seg id = some b → b.length = s.alloc) → ∃ s', s.activate id = .ok s') ∧
    ∀ x ∈ vars, ∀ bytes : List Nat, bytes.length ≤ x.size → ∃ s', s.initSpace bytes x.off = .ok s' := by
  have hi := ginv h
  refine ⟨?_, ?_, ?_, ?_⟩
  · intro size init h0 hb
    rcases declare_spec hi size init h0 hb with e | ⟨s1, e, _⟩
    · exact .inr e
    · exact .inl ⟨_, s1, e⟩
  · intro id hf
    obtain ⟨s1, _, e, _⟩ := newSegment_spec hi id hf
    exact ⟨s1, e⟩
  · intro id hl
    obtain ⟨s1, e, _⟩ := activate_spec hi id hl
    exact ⟨s1, e⟩
  · intro x hx bytes hb
    obtain ⟨s1, e, _⟩ := initSpace_spec hi bytes x hx hb
    exact ⟨s1, e⟩

/-- Runs a history. -/
def GCtx.runOps (s : GCtx) (ops : List GOp) : Except GErr GCtx := ops.foldlM (fun s op => s.step op) s

/-- **C90**, refuted: a segment made before the space grew is too small when its process starts. -/
theorem C90_grown_refuted :
    (GCtx.init.runOps [.declare 4 (some [1, 0, 0, 0]), .newSegment 1 none, .declare 8192 none, .declare 4 (some [2, 0, 0, 0])]).toBool = true ∧
    ((GCtx.init.runOps [.declare 4 (some [1, 0, 0, 0]), .newSegment 1 none, .declare 8192 none, .declare 4 (some [2, 0, 0, 0]), .activate 1]).toOption = none) := by
  decide +kernel

/-- How a history ends, without the state. -/
def outcome (s : GCtx) (ops : List GOp) : Option GErr := match s.runOps ops with | .ok _ => none | .error e => some e

/-- **C90**, refuted: with a smaller size in the parameters of an application the copy overruns its segment; with 0 the
next declaration hangs; with a larger size the next value is written behind the space that was never enlarged. -/
theorem C90_size_refuted :
    outcome .init [.declare 64 none, .newSegment 1 (some 32)] = some .bounds ∧
    outcome .init [.declare 64 none, .newSegment 1 (some 0), .declare 4 none] = some .loop ∧
    outcome .init [.declare 4096 none, .newSegment 1 (some 8192), .declare 4 none] = none ∧
    outcome .init [.declare 4096 none, .newSegment 1 (some 8192), .declare 4 none, .initSpace [7, 0, 0, 0] 4096] = some .bounds := by
  decide +kernel

/-- The value of the first byte at an offset in the segment of a process after a history. -/
def peek (ops : List GOp) (id o : Nat) : Option Nat :=
  match GCtx.init.runOps ops with
  | .ok s => ((s.seg id).bind fun b => b[o]?).join
  | .error _ => none

/-- **C90**, refuted: when any thread of a process ends, the process no longer gets late values; one that still has
all its threads does. -/
theorem C90_thread_end_refuted :
    peek [.declare 4 (some [1]), .newSegment 1 none, .newSegment 2 none, .activate 1, .activate 2, .deactivate 1, .declare 4 none, .initSpace [9] 4] 1 4 = none ∧
    peek [.declare 4 (some [1]), .newSegment 1 none, .newSegment 2 none, .activate 1, .activate 2, .deactivate 1, .declare 4 none, .initSpace [9] 4] 2 4 = some 9 := by
  decide +kernel

/-- **C90**, refuted: the postfix increment of a variable that is not the first increments another one. -/
theorem C90_postfix_refuted (o : Nat) (h : 0 < o) : preIncrement o = o ∧ postIncrement o ≠ o := by
  refine ⟨rfl, ?_⟩
  unfold postIncrement
  omega

/-- The state of a result. -/
def stateOf (r : Except GErr GCtx) : GCtx := match r with | .ok s => s | .error _ => .init

/-- The offset and state of a result. -/
def pairOf (r : Except GErr (Nat × GCtx)) : Nat × GCtx := match r with | .ok s => s | .error _ => (0, .init)

theorem stateOf_ok {r : Except GErr GCtx} (h : r.toBool = true) : r = .ok (stateOf r) := by
  cases r with
  | ok s => rfl
  | error e => cases h

theorem pairOf_ok {r : Except GErr (Nat × GCtx)} (h : r.toBool = true) : r = .ok ((pairOf r).1, (pairOf r).2) := by
  cases r with
  | ok s => rfl
  | error e => cases h

/-- The states of the example below. -/
def gex1 : GCtx := (pairOf (GCtx.init.declare 6 (some [1, 2, 3]))).2
@[inherit_doc gex1] def gex2 : GCtx := (pairOf (gex1.declare 4 none)).2
@[inherit_doc gex1] def gex3 : GCtx := stateOf (gex2.newSegment 5 none)
@[inherit_doc gex1] def gex4 : GCtx := stateOf (gex3.activate 5)
@[inherit_doc gex1] def gex5 : GCtx := (pairOf (gex4.declare 1 none)).2
@[inherit_doc gex1] def gex6 : GCtx := stateOf (gex5.initSpace [77] 12)

/-- A history that meets the hypotheses: two variables, a process, a variable of a library loaded later. -/
example : ∃ s vars, GRun s vars ∧ vars = [⟨0, 6, some [1, 2, 3]⟩, ⟨8, 4, none⟩, ⟨12, 1, none⟩] ∧ s.active = [5] ∧
    (s.seg 5).map (fun b => b.take 13) = some [some 1, some 2, some 3, none, none, none, none, none, none, none, none, none, some 77] := by
  have h1 : GRun gex1 _ := GRun.declare GRun.init (by decide) (fun bytes e => by cases e; decide) (pairOf_ok (r := GCtx.init.declare 6 (some [1, 2, 3])) (by decide +kernel))
  have h2 : GRun gex2 _ := GRun.declare h1 (by decide) (fun bytes (e : none = some bytes) => nomatch e) (pairOf_ok (r := gex1.declare 4 none) (by decide +kernel))
  have h3 : GRun gex3 _ := GRun.segment h2 (by decide +kernel) (stateOf_ok (r := gex2.newSegment 5 none) (by decide +kernel))
  have h4 : GRun gex4 _ := GRun.activate h3 (id := 5) (fun b e => by
    have : (gex3.seg 5).map List.length = some gex3.alloc := by decide +kernel
    have e' : gex3.seg 5 = some b := e
    rw [e', Option.map_some] at this
    exact Option.some.inj this) (stateOf_ok (r := gex3.activate 5) (by decide +kernel))
  have h5 : GRun gex5 _ := GRun.declare h4 (by decide) (fun bytes (e : none = some bytes) => nomatch e) (pairOf_ok (r := gex4.declare 1 none) (by decide +kernel))
  have e1 : (pairOf (GCtx.init.declare 6 (some [1, 2, 3]))).1 = 0 := by decide +kernel
  have e2 : (pairOf (gex1.declare 4 none)).1 = 8 := by decide +kernel
  have e3 : (pairOf (gex4.declare 1 none)).1 = 12 := by decide +kernel
  rw [e1] at h5
  rw [e2] at h5
  rw [e3] at h5
  have h6 : GRun gex6 _ := GRun.initSpace h5 (x := ⟨12, 1, none⟩) (bytes := [77]) (by simp) (by decide) (stateOf_ok (r := gex5.initSpace [77] 12) (by decide +kernel))
  refine ⟨gex6, _, h6, rfl, by decide +kernel, by decide +kernel⟩

end SST.Os
