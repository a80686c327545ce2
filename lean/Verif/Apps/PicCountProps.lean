import Verif.Apps.PicProps
/-
C152: the numbers of particles of the particle-in-cell skeleton.
-/
set_option autoImplicit false
namespace Verif.Apps.Pic

/-! ### Sums -/

section
variable {α : Type}

theorem total_nil (f : α → Int) : total [] f = 0 := rfl
theorem total_cons (a : α) (l : List α) (f : α → Int) : total (a :: l) f = f a + total l f := by
  simp [total]

theorem total_add (l : List α) (f g : α → Int) : total l (fun a => f a + g a) = total l f + total l g := by
  induction l with
  | nil => rfl
  | cons a l ih => rw [total_cons, total_cons, total_cons, ih]; omega

theorem total_congr {l : List α} {f g : α → Int} (h : ∀ a ∈ l, f a = g a) : total l f = total l g := by
  induction l with
  | nil => rfl
  | cons a l ih =>
    rw [total_cons, total_cons, h a (by simp), ih (fun b hb => h b (by simp [hb]))]

theorem total_le {l : List α} {f g : α → Int} (h : ∀ a ∈ l, f a ≤ g a) : total l f ≤ total l g := by
  induction l with
  | nil => exact Int.le_refl _
  | cons a l ih =>
    have h1 := h a (by simp)
    have h2 := ih (fun b hb => h b (by simp [hb]))
    rw [total_cons, total_cons]; omega

theorem total_zero {l : List α} {f : α → Int} (h : ∀ a ∈ l, f a = 0) : total l f = 0 := by
  induction l with
  | nil => rfl
  | cons a l ih => rw [total_cons, h a (by simp), ih (fun b hb => h b (by simp [hb]))]; rfl

theorem total_nonneg {l : List α} {f : α → Int} (h : ∀ a ∈ l, 0 ≤ f a) : 0 ≤ total l f := by
  rw [← total_zero (l := l) (f := fun _ => 0) (fun _ _ => rfl)]
  exact total_le h

theorem le_total {l : List α} {f : α → Int} (h : ∀ a ∈ l, 0 ≤ f a) {a : α} (ha : a ∈ l) : f a ≤ total l f := by
  induction l with
  | nil => cases ha
  | cons b l ih =>
    rw [total_cons]
    have hb := h b (by simp)
    have hl := total_nonneg (l := l) (f := f) (fun c hc => h c (by simp [hc]))
    rcases List.mem_cons.mp ha with rfl | ha
    · omega
    · have := ih (fun c hc => h c (by simp [hc])) ha; omega

theorem total_perm {l m : List α} (h : l.Perm m) (f : α → Int) : total l f = total m f := by
  induction h with
  | nil => rfl
  | cons a _ ih => rw [total_cons, total_cons, ih]
  | swap a b l => simp only [total_cons]; omega
  | trans _ _ h1 h2 => rw [h1, h2]

theorem total_map {β : Type} (l : List β) (g : β → α) (f : α → Int) : total (l.map g) f = total l (fun b => f (g b)) := by
  induction l with
  | nil => rfl
  | cons b l ih => rw [List.map_cons, total_cons, total_cons, ih]

theorem total_swap {β : Type} (l : List α) (m : List β) (f : α → β → Int) :
    total l (fun a => total m (f a)) = total m (fun b => total l (fun a => f a b)) := by
  induction l with
  | nil => exact (total_zero (fun _ _ => rfl)).symm
  | cons a l ih => rw [total_cons, ih, ← total_add]; exact total_congr (fun b _ => (total_cons a l (fun a => f a b)).symm)

variable [DecidableEq α]

theorem total_raise_out {l : List α} {a : α} (h : a ∉ l) (f : α → Int) (k : Int) : total l (raise f a k) = total l f := by
  apply total_congr
  intro b hb
  unfold raise
  rw [if_neg (fun e : b = a => h (e ▸ hb))]

theorem total_raise {l : List α} (hn : l.Nodup) {a : α} (h : a ∈ l) (f : α → Int) (k : Int) :
    total l (raise f a k) = total l f + k := by
  induction l with
  | nil => cases h
  | cons b l ih =>
    rw [List.nodup_cons] at hn
    rw [total_cons, total_cons]
    by_cases e : b = a
    · subst e
      rw [total_raise_out hn.1]; simp only [raise, if_pos]; omega
    · rcases List.mem_cons.mp h with h | h
      · exact absurd h.symm e
      · rw [ih hn.2 h]; simp only [raise, if_neg e]; omega

end

/-! ### Boxes -/

theorem mem_boxes {od b : Box} : b ∈ boxes od ↔ Inside od b := by
  obtain ⟨x, y, z⟩ := b
  simp only [boxes, List.mem_flatMap, List.mem_map, List.mem_range, Prod.mk.injEq, Inside]
  constructor
  · rintro ⟨a, ha, c, hc, d, hd, rfl, rfl, rfl⟩; exact ⟨ha, hc, hd⟩
  · rintro ⟨h1, h2, h3⟩; exact ⟨x, h1, y, h2, z, h3, rfl, rfl, rfl⟩

theorem nodup_boxes (od : Box) : (boxes od).Nodup := by
  unfold boxes List.Nodup
  rw [List.pairwise_flatMap]
  constructor
  · intro x _
    rw [List.pairwise_flatMap]
    constructor
    · intro y _
      rw [List.pairwise_map]
      exact (List.nodup_range (n := od.2.2)).imp (fun h e => h (by simpa using e))
    · refine (List.nodup_range (n := od.2.1)).imp ?_
      intro a b hab u hu v hv e
      simp only [List.mem_map] at hu hv
      obtain ⟨_, _, rfl⟩ := hu
      obtain ⟨_, _, rfl⟩ := hv
      simp only [Prod.mk.injEq] at e
      exact hab e.2.1
  · refine (List.nodup_range (n := od.1)).imp ?_
    intro a b hab u hu v hv e
    simp only [List.mem_flatMap, List.mem_map] at hu hv
    obtain ⟨_, _, _, _, rfl⟩ := hu
    obtain ⟨_, _, _, _, rfl⟩ := hv
    simp only [Prod.mk.injEq] at e
    exact hab e.1

theorem nodup_faces : faces.Nodup := by decide
theorem mem_faces (f : Fin 6) : f ∈ faces := by revert f; decide

/-- All particles of the tables. -/
def Tables.sum (od : Box) (t : Tables) : Int := total (boxes od) t.occ + total (boxes od) t.increase + total faces t.moving

/-- A destination is a face or one of the boxes. -/
def Dest.Ok (od : Box) : Dest → Prop
  | .face _ => True
  | .box b => b ∈ boxes od

theorem ways_ok {od : Box} {last i : Nat} {lo hi : Fin 6} {at' : Nat → Box} (hi' : i ≤ last)
    (h : ∀ j, j ≤ last → at' j ∈ boxes od) : (∀ d ∈ ways last i lo hi at', d.Ok od) ∧ (ways last i lo hi at').length = 2 := by
  unfold ways
  split
  · simp [Dest.Ok]
  · split
    · refine ⟨?_, rfl⟩
      intro d hd
      simp only [List.mem_cons, List.not_mem_nil, or_false] at hd
      rcases hd with rfl | rfl
      · trivial
      · exact h _ (by omega)
    · split
      · refine ⟨?_, rfl⟩
        intro d hd
        simp only [List.mem_cons, List.not_mem_nil, or_false] at hd
        rcases hd with rfl | rfl
        · trivial
        · exact h _ (by omega)
      · refine ⟨?_, rfl⟩
        intro d hd
        simp only [List.mem_cons, List.not_mem_nil, or_false] at hd
        rcases hd with rfl | rfl
        · exact h _ (by omega)
        · exact h _ (by omega)

theorem dests_ok {od b : Box} (h : b ∈ boxes od) : (∀ d ∈ dests od b, d.Ok od) ∧ (dests od b).length = 6 := by
  obtain ⟨hx, hy, hz⟩ := mem_boxes.mp h
  have h1 := ways_ok (od := od) (last := od.1 - 1) (i := b.1) (lo := 0) (hi := 1) (at' := fun x => (x, b.2.1, b.2.2))
    (by omega) (fun j hj => mem_boxes.mpr ⟨by simp only; omega, hy, hz⟩)
  have h2 := ways_ok (od := od) (last := od.2.1 - 1) (i := b.2.1) (lo := 2) (hi := 3) (at' := fun y => (b.1, y, b.2.2))
    (by omega) (fun j hj => mem_boxes.mpr ⟨hx, by simp only; omega, hz⟩)
  have h3 := ways_ok (od := od) (last := od.2.2 - 1) (i := b.2.2) (lo := 4) (hi := 5) (at' := fun z => (b.1, b.2.1, z))
    (by omega) (fun j hj => mem_boxes.mpr ⟨hx, hy, by simp only; omega⟩)
  unfold dests
  constructor
  · intro d hd
    rcases List.mem_append.mp hd with hd | hd
    · rcases List.mem_append.mp hd with hd | hd
      · exact h1.1 d hd
      · exact h2.1 d hd
    · exact h3.1 d hd
  · rw [List.length_append, List.length_append, h1.2, h2.2, h3.2]

theorem add_sum {od : Box} (t : Tables) (k : Int) {d : Dest} (h : d.Ok od) :
    (t.add k d).sum od = t.sum od + k ∧ (t.add k d).occ = t.occ := by
  cases d with
  | face f =>
    simp only [Tables.sum, Tables.add, total_raise nodup_faces (mem_faces f), and_true]; omega
  | box b =>
    simp only [Tables.sum, Tables.add, total_raise (nodup_boxes od) h, and_true]; omega

theorem adds_sum {od : Box} (k : Int) : ∀ (ds : List Dest) (t : Tables), (∀ d ∈ ds, d.Ok od) →
    (ds.foldl (fun t d => t.add k d) t).sum od = t.sum od + ds.length * k ∧
      (ds.foldl (fun t d => t.add k d) t).occ = t.occ := by
  intro ds
  induction ds with
  | nil => intro t _; simp
  | cons d ds ih =>
    intro t h
    have h1 := add_sum (od := od) t k (h d (by simp))
    have h2 := ih (t.add k d) (fun e he => h e (by simp [he]))
    rw [List.foldl_cons, h2.1, h2.2, h1.1, h1.2, List.length_cons]
    refine ⟨?_, rfl⟩
    rw [Int.natCast_add, Int.add_mul]; omega

theorem visit_sum {od : Box} (moves : Int → Int) (t : Tables) {b : Box} (h : b ∈ boxes od) :
    (t.visit od moves b).sum od = t.sum od := by
  obtain ⟨h1, h2⟩ := dests_ok h
  have h3 := adds_sum (moves (t.occ b)) (dests od b) t h1
  rw [h2] at h3
  have h4 := h3.1
  simp only [Tables.visit, Tables.sum, total_raise (nodup_boxes od) h] at h4 ⊢
  omega

theorem visits_sum {od : Box} (moves : Int → Int) : ∀ (bs : List Box) (t : Tables), (∀ b ∈ bs, b ∈ boxes od) →
    (bs.foldl (Tables.visit od moves) t).sum od = t.sum od := by
  intro bs
  induction bs with
  | nil => intro t _; rfl
  | cons b bs ih =>
    intro t h
    rw [List.foldl_cons, ih _ (fun c hc => h c (by simp [hc])), visit_sum moves t (h b (by simp))]

/-- C152: what leaves a patch leaves its boxes and its particles, for all numbers of boxes, occupations and fractions:
moves between boxes cancel. -/
theorem C152_fill (od : Box) (p : Patch) :
    total (boxes od) (fill od p).patch.occ + total faces (fill od p).out = total (boxes od) p.occ ∧
      (fill od p).patch.size + total faces (fill od p).out = p.size := by
  have h := visits_sum p.moves (boxes od) ⟨p.occ, fun _ => 0, fun _ => 0⟩ (fun _ h => h)
  simp only [Tables.sum] at h
  rw [total_zero (l := boxes od) (f := fun _ => 0) (fun _ _ => rfl), total_zero (l := faces) (f := fun _ => 0) (fun _ _ => rfl)] at h
  simp only [fill]
  rw [total_add]
  omega

example : let p : Patch := ⟨120, fun b => if b ∈ boxes (2, 2, 1) then 30 else 0, 1, 10, 1, 10⟩
    total (boxes (2, 2, 1)) (fill (2, 2, 1) p).patch.occ = 72 ∧ (faces.map (fill (2, 2, 1) p).out) = [6, 6, 6, 6, 12, 12] ∧
      (fill (2, 2, 1) p).patch.size = 72 := by decide +kernel

/-! ### Packing -/

theorem faceBoxes_ok {od : Box} (h : 0 < od.1 ∧ 0 < od.2.1 ∧ 0 < od.2.2) (f : Fin 6) :
    (∀ b ∈ faceBoxes od f, b ∈ boxes od) ∧ (faceBoxes od f).length = area od f := by
  obtain ⟨hx, hy, hz⟩ := h
  have len : ∀ (n m : Nat) (b : Nat → Nat → Box),
      ((List.range n).flatMap fun i => (List.range m).map fun j => b i j).length = n * m := by
    intro n m b
    rw [List.length_flatMap]
    simp only [List.length_map, List.length_range]
    induction n with
    | zero => simp
    | succ n ih => rw [List.range_succ, List.map_append, List.sum_append, ih, Nat.add_mul]; simp
  constructor
  · intro b hb
    rw [mem_boxes]
    rcases fin6 f with rfl | rfl | rfl | rfl | rfl | rfl <;>
      simp only [faceBoxes, List.mem_flatMap, List.mem_map, List.mem_range] at hb <;>
      obtain ⟨i, hi, j, hj, rfl⟩ := hb <;> refine ⟨?_, ?_, ?_⟩ <;> simp only <;> omega
  · rcases fin6 f with rfl | rfl | rfl | rfl | rfl | rfl <;> simp only [faceBoxes, area, len]

theorem raises_total {l : List Box} (hn : l.Nodup) (k : Int) : ∀ (bs : List Box) (o : Box → Int), (∀ b ∈ bs, b ∈ l) →
    total l (bs.foldl (fun o b => raise o b k) o) = total l o + bs.length * k := by
  intro bs
  induction bs with
  | nil => intro o _; simp
  | cons b bs ih =>
    intro o h
    rw [List.foldl_cons, ih _ (fun c hc => h c (by simp [hc])), total_raise hn (h b (by simp)), List.length_cons,
      Int.natCast_add, Int.add_mul]
    omega

/-- What boxes get at a face: the rest of the division is lost. -/
def share (od : Box) (inc : Fin 6 → Int) (f : Fin 6) : Int := inc f / area od f * area od f

theorem packFaces {od : Box} (h : 0 < od.1 ∧ 0 < od.2.1 ∧ 0 < od.2.2) (inc : Fin 6 → Int) (hi : ∀ f, 0 ≤ inc f) :
    ∀ (fs : List (Fin 6)) (s : (Box → Int) × Int),
      total (boxes od) (fs.foldl (packFace od inc) s).1 = total (boxes od) s.1 + total fs (share od inc) ∧
        (fs.foldl (packFace od inc) s).2 = s.2 + total fs inc := by
  intro fs
  induction fs with
  | nil => intro s; simp [total_nil]
  | cons f fs ih =>
    intro s
    obtain ⟨h1, h2⟩ := ih (packFace od inc s f)
    rw [List.foldl_cons, h1, h2, total_cons, total_cons]
    unfold packFace
    split
    · simp only
      rw [raises_total (nodup_boxes od) _ _ _ (faceBoxes_ok h f).1, (faceBoxes_ok h f).2]
      unfold share
      rw [Int.mul_comm]
      constructor <;> omega
    · have h0 : inc f = 0 := by have := hi f; omega
      simp only [share, h0, Int.zero_ediv, Int.zero_mul, Int.zero_add, and_self]

/-- C152: the particles of a patch grow by all that comes in. -/
theorem C152_pack {od : Box} (h : 0 < od.1 ∧ 0 < od.2.1 ∧ 0 < od.2.2) (p : Patch) (inc : Fin 6 → Int) (hi : ∀ f, 0 ≤ inc f) :
    (pack od p inc).size = p.size + total faces inc := by
  have h1 := packFaces h inc hi faces (p.occ, 0)
  simp only [pack, h1.2]
  omega

theorem area_pos {od : Box} (h : 0 < od.1 ∧ 0 < od.2.1 ∧ 0 < od.2.2) (f : Fin 6) : 0 < area od f := by
  obtain ⟨hx, hy, hz⟩ := h
  rcases fin6 f with rfl | rfl | rfl | rfl | rfl | rfl <;> simp only [area] <;> exact Nat.mul_pos (by assumption) (by assumption)

theorem share_le (od : Box) (h : 0 < od.1 ∧ 0 < od.2.1 ∧ 0 < od.2.2) (inc : Fin 6 → Int) (f : Fin 6) : share od inc f ≤ inc f := by
  unfold share
  exact Int.ediv_mul_le _ (by have := area_pos h f; omega)

theorem total_eq_iff {α : Type} {l : List α} {f g : α → Int} (h : ∀ a ∈ l, f a ≤ g a) :
    total l f = total l g ↔ ∀ a ∈ l, f a = g a := by
  constructor
  · induction l with
    | nil => intro _ a ha; cases ha
    | cons b l ih =>
      intro e a ha
      rw [total_cons, total_cons] at e
      have h1 := h b (by simp)
      have h2 := total_le (l := l) (f := f) (g := g) (fun c hc => h c (by simp [hc]))
      rcases List.mem_cons.mp ha with rfl | ha
      · omega
      · exact ih (fun c hc => h c (by simp [hc])) (by omega) a ha
  · exact total_congr

/-- C152: the boxes of a patch grow by no more than comes in, and by all of it exactly if at each face the boxes divide
what comes in. -/
theorem C152_boxes_partial {od : Box} (h : 0 < od.1 ∧ 0 < od.2.1 ∧ 0 < od.2.2) (p : Patch) (inc : Fin 6 → Int)
    (hi : ∀ f, 0 ≤ inc f) :
    total (boxes od) (pack od p inc).occ ≤ total (boxes od) p.occ + total faces inc ∧
      (total (boxes od) (pack od p inc).occ = total (boxes od) p.occ + total faces inc ↔
        ∀ f, (area od f : Int) ∣ inc f) := by
  have h1 := packFaces h inc hi faces (p.occ, 0)
  have h2 := total_le (l := faces) (fun f _ => share_le od h inc f)
  simp only [pack, h1.1]
  refine ⟨by omega, ?_⟩
  have h3 := total_eq_iff (l := faces) (fun f _ => share_le od h inc f)
  constructor
  · intro e f
    have := h3.mp (by omega) f (mem_faces f)
    exact ⟨inc f / area od f, by rw [Int.mul_comm]; exact this.symm⟩
  · intro hd
    have := h3.mpr (fun f _ => Int.ediv_mul_cancel (hd f))
    omega

example : let p : Patch := ⟨8, fun b => if b ∈ boxes (2, 2, 2) then 1 else 0, 0, 1, 0, 1⟩
    total (boxes (2, 2, 2)) (pack (2, 2, 2) p fun f => if f = 3 then 8 else 0).occ = 16 := by decide +kernel

/-- C152, refuted: with several boxes the rest of the division of what comes in is in no box, although it is counted in
the patch. -/
theorem C152_boxes_refuted : ∃ (od : Box) (p : Patch) (inc : Fin 6 → Int), (0 < od.1 ∧ 0 < od.2.1 ∧ 0 < od.2.2) ∧
    (∀ f, 0 ≤ inc f) ∧ total (boxes od) p.occ = p.size ∧
      total (boxes od) (pack od p inc).occ + 18 = (pack od p inc).size :=
  ⟨(2, 2, 2), ⟨0, fun _ => 0, 0, 1, 0, 1⟩, fun _ => 3, by decide, by decide, by decide, by decide +kernel⟩

end Verif.Apps.Pic
