import Verif.Apps.PicCountProps
/-
C152: the whole system of the particle-in-cell skeleton: conservation, the end of a step, the initial state, fractions.
-/
set_option autoImplicit false
namespace Verif.Apps.Pic

/-- A patch with no negative box, and with at most a sixth of a box leaving by each face. -/
structure Sane (p : Patch) : Prop where
  occ : ∀ b, 0 ≤ p.occ b
  num : 0 ≤ p.num
  den : 0 < p.den
  sixth : 6 * p.num ≤ p.den
  scaleNum : 0 ≤ p.scaleNum
  scaleDen : 0 < p.scaleDen
  scale : 6 * p.scaleNum ≤ p.scaleDen

theorem Sane.moves {p : Patch} (h : Sane p) {x : Int} (hx : 0 ≤ x) : 0 ≤ p.moves x ∧ 6 * p.moves x ≤ x := by
  have h0 : 0 ≤ p.num * x := Int.mul_nonneg h.num hx
  unfold Patch.moves
  rw [Int.tdiv_eq_ediv_of_nonneg h0]
  refine ⟨Int.ediv_nonneg h0 (by have := h.den; omega), ?_⟩
  have h1 : p.num * x / p.den * p.den ≤ p.num * x := Int.ediv_mul_le _ (by have := h.den; omega)
  have h2 : 6 * p.num * x ≤ p.den * x := Int.mul_le_mul_of_nonneg_right h.sixth hx
  rw [Int.mul_assoc] at h2
  have h3 : p.den * (6 * (p.num * x / p.den)) ≤ p.den * x := by
    have : p.den * (6 * (p.num * x / p.den)) = 6 * (p.num * x / p.den * p.den) := by
      rw [Int.mul_comm, Int.mul_assoc]
    omega
  exact Int.le_of_mul_le_mul_left h3 h.den

/-! ### No negative numbers -/

/-- Tables without negative numbers. -/
structure Tables.Pos (t : Tables) : Prop where
  occ : ∀ b, 0 ≤ t.occ b
  increase : ∀ b, 0 ≤ t.increase b
  moving : ∀ f, 0 ≤ t.moving f

theorem raise_nonneg {α : Type} [DecidableEq α] {f : α → Int} (h : ∀ a, 0 ≤ f a) {k : Int} (hk : 0 ≤ k) (a b : α) :
    0 ≤ raise f a k b := by
  unfold raise
  have := h b
  split <;> omega

theorem add_pos {t : Tables} (h : t.Pos) {k : Int} (hk : 0 ≤ k) (d : Dest) : (t.add k d).Pos ∧ (t.add k d).occ = t.occ := by
  cases d with
  | face f => exact ⟨⟨h.occ, h.increase, raise_nonneg h.moving hk f⟩, rfl⟩
  | box b => exact ⟨⟨h.occ, raise_nonneg h.increase hk b, h.moving⟩, rfl⟩

theorem adds_pos {k : Int} (hk : 0 ≤ k) : ∀ (ds : List Dest) {t : Tables}, t.Pos →
    (ds.foldl (fun t d => t.add k d) t).Pos ∧ (ds.foldl (fun t d => t.add k d) t).occ = t.occ := by
  intro ds
  induction ds with
  | nil => intro t h; exact ⟨h, rfl⟩
  | cons d ds ih =>
    intro t h
    have h1 := add_pos h hk d
    have h2 := ih h1.1
    rw [List.foldl_cons]
    exact ⟨h2.1, h2.2.trans h1.2⟩

theorem visits_pos {p : Patch} (hp : Sane p) (od : Box) : ∀ (bs : List Box) {t : Tables}, t.Pos →
    (bs.foldl (Tables.visit od p.moves) t).Pos := by
  intro bs
  induction bs with
  | nil => intro t h; exact h
  | cons b bs ih =>
    intro t h
    rw [List.foldl_cons]
    apply ih
    obtain ⟨h1, h2⟩ := hp.moves (h.occ b)
    have h3 := adds_pos h1 (dests od b) h
    refine ⟨?_, h3.1.increase, h3.1.moving⟩
    intro c
    simp only [Tables.visit, raise, h3.2]
    have := h.occ c
    split
    · next e => subst e; omega
    · exact this

theorem fill_pos {p : Patch} (hp : Sane p) (od : Box) : (∀ f, 0 ≤ (fill od p).out f) ∧ Sane (fill od p).patch := by
  have h := visits_pos hp od (boxes od) (t := ⟨p.occ, fun _ => 0, fun _ => 0⟩) ⟨hp.occ, fun _ => Int.le_refl _, fun _ => Int.le_refl _⟩
  refine ⟨h.moving, ⟨?_, Int.mul_nonneg hp.num hp.scaleNum, Int.mul_pos hp.den hp.scaleDen, ?_, hp.scaleNum, hp.scaleDen, hp.scale⟩⟩
  · intro b
    have h1 := h.occ b
    have h2 := h.increase b
    simp only [fill]
    omega
  · simp only [fill]
    have h1 : 6 * (p.num * p.scaleNum) = (6 * p.num) * p.scaleNum := by rw [Int.mul_assoc]
    have h2 : (6 * p.num) * p.scaleNum ≤ p.den * p.scaleNum := Int.mul_le_mul_of_nonneg_right hp.sixth hp.scaleNum
    have h3 : p.den * p.scaleNum ≤ p.den * p.scaleDen :=
      Int.mul_le_mul_of_nonneg_left (by have := hp.scale; have := hp.scaleNum; omega) (by have := hp.den; omega)
    omega

theorem raises_nonneg {k : Int} (hk : 0 ≤ k) : ∀ (bs : List Box) {o : Box → Int}, (∀ b, 0 ≤ o b) →
    ∀ b, 0 ≤ (bs.foldl (fun o b => raise o b k) o) b := by
  intro bs
  induction bs with
  | nil => intro o h; exact h
  | cons b bs ih => intro o h; rw [List.foldl_cons]; exact ih (raise_nonneg h hk b)

theorem packFaces_nonneg (od : Box) {inc : Fin 6 → Int} (hi : ∀ f, 0 ≤ inc f) : ∀ (fs : List (Fin 6)) {s : (Box → Int) × Int},
    (∀ b, 0 ≤ s.1 b) → ∀ b, 0 ≤ (fs.foldl (packFace od inc) s).1 b := by
  intro fs
  induction fs with
  | nil => intro s h; exact h
  | cons f fs ih =>
    intro s h
    rw [List.foldl_cons]
    apply ih
    unfold packFace
    split
    · exact raises_nonneg (Int.ediv_nonneg (hi f) (Int.natCast_nonneg _)) _ h
    · exact h

theorem pack_pos {p : Patch} (hp : Sane p) (od : Box) {inc : Fin 6 → Int} (hi : ∀ f, 0 ≤ inc f) : Sane (pack od p inc) :=
  ⟨packFaces_nonneg od hi faces hp.occ, hp.num, hp.den, hp.sixth, hp.scaleNum, hp.scaleDen, hp.scale⟩

/-! ### The system -/

/-- All patches of a system are sane. -/
def AllSane (s : Nat → Patch) : Prop := ∀ p, Sane (s p)

theorem incoming_perm (n : Box) (f : Fin 6) : ((ranks n).map fun p => incoming n p f).Perm (ranks n) := by
  have hm : ∀ x, x ∈ ((ranks n).map fun p => incoming n p f) ↔ x ∈ ranks n := by
    intro x
    simp only [ranks, List.mem_map, List.mem_range]
    constructor
    · rintro ⟨p, hp, rfl⟩; exact (out_in hp f).2.1
    · intro hx; exact ⟨outgoing n x f, (out_in hx f).1, (out_in hx f).2.2.1⟩
  have hn : ((ranks n).map fun p => incoming n p f).Nodup := by
    unfold List.Nodup
    rw [List.pairwise_map]
    refine List.Pairwise.imp_of_mem ?_ (List.nodup_range (n := n.1 * n.2.1 * n.2.2))
    intro a b ha hb hab e
    have ha := List.mem_range.mp ha
    have hb := List.mem_range.mp hb
    exact hab (by rw [← (out_in ha f).2.2.2, e, (out_in hb f).2.2.2])
  rw [List.perm_iff_count]
  intro a
  have h1 := List.nodup_iff_count.mp hn a
  have h2 := List.nodup_iff_count.mp (List.nodup_range (n := n.1 * n.2.1 * n.2.2)) a
  by_cases ha : a ∈ ((ranks n).map fun p => incoming n p f)
  · have h3 := List.count_pos_iff.mpr ha
    have h4 := List.count_pos_iff.mpr ((hm a).mp ha)
    unfold ranks at *
    omega
  · rw [List.count_eq_zero.mpr ha, List.count_eq_zero.mpr (fun h => ha ((hm a).mpr h))]

/-- All that is sent is received. -/
theorem received (n : Box) (out : Nat → Fin 6 → Int) :
    total (ranks n) (fun p => total faces fun f => out (incoming n p f) f) = total (ranks n) (fun p => total faces (out p)) := by
  rw [total_swap, total_swap (ranks n) faces out]
  apply total_congr
  intro f _
  rw [← total_map (ranks n) (fun p => incoming n p f) (fun q => out q f)]
  exact total_perm (incoming_perm n f) _

/-- The state after a turn. -/
def Turn.state : Turn → Option (Nat → Patch)
  | .abort => none
  | .done s => some s
  | .again s => some s

theorem turn_state {n od : Box} {s s' : Nat → Patch} (h : (turn n od s).state = some s') :
    s' = fun p => pack od (fill od (s p)).patch fun f => (fill od (s (incoming n p f))).out f := by
  unfold turn at h
  simp only at h
  split at h
  · cases h
  · split at h <;> simp only [Turn.state, Option.some.injEq] at h <;> exact h.symm

theorem turn_sums {n od : Box} (hod : 0 < od.1 ∧ 0 < od.2.1 ∧ 0 < od.2.2) {s s' : Nat → Patch} (hs : AllSane s)
    (h : (turn n od s).state = some s') :
    AllSane s' ∧ total (ranks n) (fun p => (s' p).size) = total (ranks n) (fun p => (s p).size) ∧
      total (ranks n) (fun p => total (boxes od) (s' p).occ) ≤ total (ranks n) (fun p => total (boxes od) (s p).occ) := by
  rw [turn_state h]
  dsimp only
  have hi : ∀ p f, 0 ≤ (fill od (s (incoming n p f))).out f := fun p f => (fill_pos (hs _) od).1 f
  have hr := received n (fun p => (fill od (s p)).out)
  refine ⟨fun p => pack_pos (fill_pos (hs p) od).2 od (hi p), ?_, ?_⟩
  · have h1 : total (ranks n) (fun p => (pack od (fill od (s p)).patch fun f => (fill od (s (incoming n p f))).out f).size) =
        total (ranks n) (fun p => (fill od (s p)).patch.size) +
          total (ranks n) (fun p => total faces fun f => (fill od (s (incoming n p f))).out f) := by
      rw [← total_add]
      exact total_congr (fun p _ => C152_pack hod _ _ (hi p))
    have h2 : total (ranks n) (fun p => (fill od (s p)).patch.size) + total (ranks n) (fun p => total faces (fill od (s p)).out) =
        total (ranks n) (fun p => (s p).size) := by
      rw [← total_add]
      exact total_congr (fun p _ => (C152_fill od (s p)).2)
    omega
  · have h1 : total (ranks n) (fun p => total (boxes od) (pack od (fill od (s p)).patch fun f => (fill od (s (incoming n p f))).out f).occ) ≤
        total (ranks n) (fun p => total (boxes od) (fill od (s p)).patch.occ) +
          total (ranks n) (fun p => total faces fun f => (fill od (s (incoming n p f))).out f) := by
      rw [← total_add]
      exact total_le (fun p _ => (C152_boxes_partial hod _ _ (hi p)).1)
    have h2 : total (ranks n) (fun p => total (boxes od) (fill od (s p)).patch.occ) + total (ranks n) (fun p => total faces (fill od (s p)).out) =
        total (ranks n) (fun p => total (boxes od) (s p).occ) := by
      rw [← total_add]
      exact total_congr (fun p _ => (C152_fill od (s p)).1)
    omega

/-- C152: no particle of the system is lost or made in a step: on all grids, for all numbers of boxes, occupations and
fractions up to a sixth, after any number of exchanges all patches together have as many particles as before. -/
theorem C152_conserved {n od : Box} (hod : 0 < od.1 ∧ 0 < od.2.1 ∧ 0 < od.2.2) :
    ∀ (k : Nat) {s s' : Nat → Patch}, AllSane s → (move n od k s).state = some s' →
      total (ranks n) (fun p => (s' p).size) = total (ranks n) (fun p => (s p).size) := by
  intro k
  induction k with
  | zero => intro s s' _ h; simp only [move, Turn.state, Option.some.injEq] at h; rw [h]
  | succ k ih =>
    intro s s' hs h
    unfold move at h
    cases e : turn n od s with
    | abort => rw [e] at h; cases h
    | done t =>
      rw [e] at h
      exact (turn_sums hod hs (by rw [e]; exact h)).2.1
    | again t =>
      rw [e] at h
      have h1 := turn_sums hod hs (s' := t) (by rw [e]; rfl)
      rw [ih h1.1 h, h1.2.1]

/-! ### The end -/

theorem visits_still (od : Box) {moves : Int → Int} : ∀ (bs : List Box) (t : Tables), (∀ b, moves (t.occ b) = 0) → (∀ f, t.moving f = 0) →
    (∀ f, (bs.foldl (Tables.visit od moves) t).moving f = 0) := by
  intro bs
  induction bs with
  | nil => intro t _ h; exact h
  | cons b bs ih =>
    intro t h hm
    rw [List.foldl_cons]
    have key : ∀ (ds : List Dest) (t : Tables), (∀ f, t.moving f = 0) →
        (∀ f, (ds.foldl (fun t d => t.add 0 d) t).moving f = 0) ∧ (ds.foldl (fun t d => t.add 0 d) t).occ = t.occ := by
      intro ds
      induction ds with
      | nil => intro t h; exact ⟨h, rfl⟩
      | cons d ds ih =>
        intro t h
        rw [List.foldl_cons]
        have h1 : (∀ f, (t.add 0 d).moving f = 0) ∧ (t.add 0 d).occ = t.occ := by
          cases d with
          | face f => refine ⟨?_, rfl⟩; intro g; simp only [Tables.add, raise, h g]; split <;> rfl
          | box b => exact ⟨h, rfl⟩
        have h2 := ih _ h1.1
        exact ⟨h2.1, h2.2.trans h1.2⟩
    have h1 := key (dests od b) t hm
    have e : (t.visit od moves b).occ = t.occ := by
      funext c
      simp only [Tables.visit, h b, h1.2, raise]
      split <;> omega
    apply ih
    · intro c; rw [e]; exact h c
    · simp only [Tables.visit, h b]; exact h1.1

theorem fill_still {p : Patch} (od : Box) (h : ∀ b, p.moves (p.occ b) = 0) (f : Fin 6) : (fill od p).out f = 0 :=
  visits_still od (boxes od) ⟨p.occ, fun _ => 0, fun _ => 0⟩ h (fun _ => rfl) f

/-- Boxes outside the patch hold nothing. -/
def Confined (od : Box) (p : Patch) : Prop := ∀ b, b ∉ boxes od → p.occ b = 0

theorem visits_confined {od : Box} (moves : Int → Int) : ∀ (bs : List Box) (t : Tables), (∀ b ∈ bs, b ∈ boxes od) →
    (∀ b, b ∉ boxes od → t.occ b = 0 ∧ t.increase b = 0) →
      ∀ b, b ∉ boxes od → (bs.foldl (Tables.visit od moves) t).occ b = 0 ∧ (bs.foldl (Tables.visit od moves) t).increase b = 0 := by
  intro bs
  induction bs with
  | nil => intro t _ h; exact h
  | cons b bs ih =>
    intro t hb h
    rw [List.foldl_cons]
    have key : ∀ (k : Int) (ds : List Dest) (t : Tables), (∀ d ∈ ds, d.Ok od) → (∀ b, b ∉ boxes od → t.occ b = 0 ∧ t.increase b = 0) →
        (∀ b, b ∉ boxes od → (ds.foldl (fun t d => t.add k d) t).occ b = 0 ∧ (ds.foldl (fun t d => t.add k d) t).increase b = 0) := by
      intro k ds
      induction ds with
      | nil => intro t _ h; exact h
      | cons d ds ih =>
        intro t hd h
        rw [List.foldl_cons]
        apply ih _ (fun e he => hd e (by simp [he]))
        intro c hc
        cases d with
        | face f => exact h c hc
        | box x =>
          have hx : x ∈ boxes od := hd (.box x) (by simp)
          refine ⟨(h c hc).1, ?_⟩
          simp only [Tables.add, raise]
          rw [if_neg (fun e : c = x => hc (e ▸ hx))]
          exact (h c hc).2
    apply ih _ (fun c hc => hb c (by simp [hc]))
    intro c hc
    have h1 := key (moves (t.occ b)) (dests od b) t (dests_ok (hb b (by simp))).1 h c hc
    refine ⟨?_, h1.2⟩
    simp only [Tables.visit, raise]
    rw [if_neg (fun e : c = b => hc (e ▸ hb b (by simp)))]
    exact h1.1

theorem fill_confined {od : Box} {p : Patch} (h : Confined od p) : Confined od (fill od p).patch := by
  intro b hb
  have h1 := visits_confined p.moves (boxes od) ⟨p.occ, fun _ => 0, fun _ => 0⟩ (fun _ h => h) (fun c hc => ⟨h c hc, rfl⟩) b hb
  simp only [fill, h1.1, h1.2]
  rfl

theorem pack_confined {od : Box} (hod : 0 < od.1 ∧ 0 < od.2.1 ∧ 0 < od.2.2) {p : Patch} (h : Confined od p) (inc : Fin 6 → Int) :
    Confined od (pack od p inc) := by
  have key : ∀ (k : Int) (bs : List Box) (o : Box → Int), (∀ b ∈ bs, b ∈ boxes od) → (∀ b, b ∉ boxes od → o b = 0) →
      ∀ b, b ∉ boxes od → (bs.foldl (fun o b => raise o b k) o) b = 0 := by
    intro k bs
    induction bs with
    | nil => intro o _ h; exact h
    | cons b bs ih =>
      intro o hb h
      rw [List.foldl_cons]
      apply ih _ (fun c hc => hb c (by simp [hc]))
      intro c hc
      simp only [raise]
      rw [if_neg (fun e : c = b => hc (e ▸ hb b (by simp)))]
      exact h c hc
  have key2 : ∀ (fs : List (Fin 6)) (s : (Box → Int) × Int), (∀ b, b ∉ boxes od → s.1 b = 0) →
      ∀ b, b ∉ boxes od → (fs.foldl (packFace od inc) s).1 b = 0 := by
    intro fs
    induction fs with
    | nil => intro s h; exact h
    | cons f fs ih =>
      intro s h
      rw [List.foldl_cons]
      apply ih
      unfold packFace
      split
      · exact key _ _ _ (faceBoxes_ok hod f).1 h
      · exact h
  exact key2 faces (p.occ, 0) h

theorem small_still {p : Patch} (hp : Sane p) {c x : Int} (hc : c * p.num ≤ p.den) (h0 : 0 ≤ x) (hx : x < c) : p.moves x = 0 := by
  have h1 : 0 ≤ p.num * x := Int.mul_nonneg hp.num h0
  unfold Patch.moves
  rw [Int.tdiv_eq_ediv_of_nonneg h1]
  apply Int.ediv_eq_zero_of_lt h1
  rcases Int.lt_or_eq_of_le hp.num with h2 | h2
  · have : p.num * x < p.num * c := Int.mul_lt_mul_of_pos_left hx h2
    rw [Int.mul_comm p.num c] at this
    omega
  · rw [← h2, Int.zero_mul]; exact hp.den

theorem not_again {n od : Box} {s : Nat → Patch} (h : ∀ p ∈ ranks n, ∀ f, (fill od (s p)).out f = 0) (s' : Nat → Patch) :
    turn n od s ≠ .again s' := by
  unfold turn
  simp only
  rw [total_zero (fun p hp => total_zero (fun f _ => h p hp f))]
  split
  · exact fun h => by cases h
  · simp

/-- C152: a step comes to an end: on all grids, with any boxes and occupations and with all fractions up to a sixth,
there is a number of exchanges after which nothing moves, or the program has stopped because too much moved. -/
theorem C152_ends_partial {n od : Box} (hod : 0 < od.1 ∧ 0 < od.2.1 ∧ 0 < od.2.2) {s : Nat → Patch} (hs : AllSane s)
    (hc : ∀ p, Confined od (s p)) : ∃ k, ∀ s', move n od k s ≠ .again s' := by
  have key : ∀ (j : Nat) (c T : Int) (s : Nat → Patch), AllSane s → (∀ p, Confined od (s p)) → 0 < c → T < c * 6 ^ j →
      (∀ p, c * (s p).num ≤ (s p).den) → total (ranks n) (fun p => total (boxes od) (s p).occ) ≤ T →
        ∀ s', move n od (j + 1) s ≠ .again s' := by
    intro j
    induction j with
    | zero =>
      intro c T s hs hcf hpos hT hn ht s'
      have h0 : ∀ s', turn n od s ≠ .again s' := by
        apply not_again
        intro p hp f
        apply fill_still
        intro b
        apply small_still (hs p) (hn p) ((hs p).occ b)
        have hnn : ∀ q ∈ ranks n, 0 ≤ total (boxes od) (s q).occ := fun q _ => total_nonneg (fun b _ => (hs q).occ b)
        have h1 := le_total hnn hp
        by_cases hb : b ∈ boxes od
        · have h2 := le_total (f := (s p).occ) (fun b _ => (hs p).occ b) hb
          simp only [Int.pow_zero, Int.mul_one] at hT
          omega
        · rw [hcf p b hb]; exact hpos
      unfold move
      cases e : turn n od s with
      | abort => exact fun h => by cases h
      | done t => exact fun h => by cases h
      | again t => exact absurd e (h0 t)
    | succ j ih =>
      intro c T s hs hcf hpos hT hn ht s'
      unfold move
      cases e : turn n od s with
      | abort => exact fun h => by cases h
      | done t => exact fun h => by cases h
      | again t =>
        have he : (turn n od s).state = some t := by rw [e]; rfl
        have h1 := turn_sums hod hs he
        have h2 := turn_state he
        refine ih (c * 6) T t h1.1 ?_ (by omega) ?_ ?_ (by omega) s'
        · intro p; rw [h2]; exact pack_confined hod (fill_confined (hcf p)) _
        · rw [Int.mul_assoc, ← Int.pow_succ']; exact hT
        · intro p
          rw [h2]
          simp only [pack, fill]
          have h3 : c * 6 * ((s p).num * (s p).scaleNum) = (c * (s p).num) * (6 * (s p).scaleNum) := by
            rw [Int.mul_assoc, Int.mul_assoc, Int.mul_left_comm 6]
          rw [h3]
          exact Int.mul_le_mul (hn p) (hs p).scale (by have := (hs p).scaleNum; omega) (by have := (hs p).den; omega)
  have hT : ∀ T : Nat, (T : Int) < 6 * 6 ^ T := by
    intro T
    induction T with
    | zero => decide
    | succ T ih => rw [Int.pow_succ']; omega
  refine ⟨_, key (total (ranks n) (fun p => total (boxes od) (s p).occ)).toNat 6 _ s hs hc (by decide) ?_ (fun p => (hs p).sixth) (Int.le_refl _)⟩
  have := hT (total (ranks n) (fun p => total (boxes od) (s p).occ)).toNat
  omega

/-- A system for which a step ends after some exchanges. -/
def exampleSystem : Nat → Patch := fun _ => ⟨64, fun b => if b ∈ boxes (2, 1, 1) then 32 else 0, 1, 20, 1, 20⟩

example : AllSane exampleSystem ∧ (∀ p, Confined (2, 1, 1) (exampleSystem p)) := by
  refine ⟨fun p => ⟨fun b => ?_, ?_, ?_, ?_, ?_, ?_, ?_⟩, fun p b hb => ?_⟩
  · simp only [exampleSystem]; split <;> decide
  · simp [exampleSystem]
  · simp [exampleSystem]
  · simp [exampleSystem]
  · simp [exampleSystem]
  · simp [exampleSystem]
  · simp [exampleSystem]
  · simp only [exampleSystem]; rw [if_neg hb]

example : (match turn (2, 1, 1) (2, 1, 1) exampleSystem with | .again _ => true | _ => false) = true ∧
    (match move (2, 1, 1) (2, 1, 1) 2 exampleSystem with | .done s => (s 0).size == 64 && (s 1).size == 64 | _ => false) = true := by
  decide +kernel

/-- C152, refuted: with larger fractions, which the parameters allow, boxes get negative although no abort stops the
program: moves between boxes are not counted there. -/
theorem C152_negative_refuted : ∃ (od : Box) (p : Patch), (∀ b, 0 ≤ p.occ b) ∧ total (boxes od) p.occ = p.size ∧ 0 < p.den ∧
    3 * p.num < p.den ∧ (fill od p).aborts = false ∧ ∃ b ∈ boxes od, (fill od p).patch.occ b < 0 := by
  refine ⟨(4, 4, 4), ⟨100, fun b => if b = (1, 1, 1) then 100 else 0, 1, 4, 1, 4⟩, ?_, by decide +kernel, by decide, by decide,
    by decide +kernel, (1, 1, 1), by decide +kernel, by decide +kernel⟩
  intro b
  simp only
  split <;> decide

/-! ### The initial state -/

/-- C152: boxes are filled exactly for one to four of them in each dimension; each has an equal share, and all particles
are in boxes if and only if the number of boxes divides them. -/
theorem C152_initial {od : Box} (ppc cells : Nat) :
    ((∃ occ, initBoxes od ppc cells = .ready occ) ↔
      (1 ≤ od.1 ∧ od.1 ≤ 4) ∧ (1 ≤ od.2.1 ∧ od.2.1 ≤ 4) ∧ (1 ≤ od.2.2 ∧ od.2.2 ≤ 4)) ∧
      ∀ occ, initBoxes od ppc cells = .ready occ → (∀ b ∈ boxes od, ∀ c ∈ boxes od, occ b = occ c) ∧
        (total (boxes od) occ = ppc * cells ↔ od.1 * od.2.1 * od.2.2 ∣ ppc * cells) := by
  have hlen : (boxes od).length = od.1 * od.2.1 * od.2.2 := by
    have inner : ∀ x : Nat, ((List.range od.2.1).flatMap fun y => (List.range od.2.2).map fun z => ((x, y, z) : Box)).length = od.2.1 * od.2.2 := by
      intro x
      generalize od.2.1 = m
      induction m with
      | zero => simp
      | succ m ih => rw [List.range_succ, List.flatMap_append, List.length_append, ih, Nat.add_mul]; simp
    unfold boxes
    generalize od.1 = m
    induction m with
    | zero => simp
    | succ m ih =>
      rw [List.range_succ, List.flatMap_append, List.length_append, ih]
      simp only [List.flatMap_singleton, inner]
      rw [Nat.add_mul, Nat.add_mul, Nat.one_mul]
  constructor
  · unfold initBoxes
    split
    · next h0 =>
      constructor
      · rintro ⟨_, h⟩; cases h
      · rintro ⟨⟨h1, _⟩, ⟨h2, _⟩, ⟨h3, _⟩⟩
        have := Nat.mul_pos (Nat.mul_pos h1 h2) h3
        omega
    · next h0 =>
      have hx : 1 ≤ od.1 := Nat.pos_of_ne_zero (fun h => h0 (by simp [h]))
      have hy : 1 ≤ od.2.1 := Nat.pos_of_ne_zero (fun h => h0 (by simp [h]))
      have hz : 1 ≤ od.2.2 := Nat.pos_of_ne_zero (fun h => h0 (by simp [h]))
      split
      · next h =>
        rw [List.any_eq_true] at h
        obtain ⟨b, hb, h⟩ := h
        obtain ⟨h1, h2, h3⟩ := mem_boxes.mp hb
        simp only [Bool.or_eq_true, decide_eq_true_eq] at h
        constructor
        · rintro ⟨_, h⟩; cases h
        · rintro ⟨⟨_, h4⟩, ⟨_, h5⟩, ⟨_, h6⟩⟩; omega
      · next h =>
        constructor
        · intro _
          have hall : ∀ b ∈ boxes od, b.1 < 4 ∧ b.2.1 < 4 ∧ b.2.2 < 4 := by
            intro b hb
            have hnot : ¬ (b.1 ≥ 4 || b.2.1 ≥ 4 || b.2.2 ≥ 4) = true := fun e => h (List.any_eq_true.mpr ⟨b, hb, e⟩)
            simp only [Bool.or_eq_true, decide_eq_true_eq] at hnot
            omega
          have := hall (od.1 - 1, od.2.1 - 1, od.2.2 - 1) (mem_boxes.mpr ⟨by simp only; omega, by simp only; omega, by simp only; omega⟩)
          simp only at this
          omega
        · intro _; exact ⟨_, rfl⟩
  · intro occ h
    unfold initBoxes at h
    split at h
    · cases h
    · next h0 =>
      split at h
      · cases h
      · simp only [Init.ready.injEq] at h
        subst h
        refine ⟨fun b hb c hc => by simp only [hb, hc, if_pos], ?_⟩
        have hsum : total (boxes od) (fun b => if b ∈ boxes od then (((ppc * cells) / (od.1 * od.2.1 * od.2.2) : Nat) : Int) else 0) =
            ((od.1 * od.2.1 * od.2.2 * (ppc * cells / (od.1 * od.2.1 * od.2.2)) : Nat) : Int) := by
          rw [total_congr (g := fun _ => (((ppc * cells) / (od.1 * od.2.1 * od.2.2) : Nat) : Int)) (fun b hb => by simp only [hb, if_pos]),
            ← hlen]
          generalize ppc * cells / (boxes od).length = v
          clear hlen h0
          induction boxes od with
          | nil => simp [total_nil]
          | cons b l ih => rw [total_cons, ih, List.length_cons, Nat.add_mul]; omega
        rw [hsum, ← Int.natCast_mul, Int.natCast_inj]
        exact ⟨fun e => ⟨_, e.symm⟩, fun h => Nat.mul_div_cancel' h⟩

example : (∃ occ, initBoxes (4, 4, 4) 30 1000 = .ready occ) ∧ ¬ 4 * 4 * 4 ∣ 30 * 1000 := by
  exact ⟨(C152_initial 30 1000).1.mpr (by decide), by decide⟩

/-! ### Fractions -/

/-- C152: scrambled fractions stay within the limits of the user, for all steps and positions. -/
theorem C152_fractions_partial (low high : Int) (h : low ≤ high) (od pos unit step : Nat) :
    7 * low ≤ fraction7 true low high od pos unit step ∧ fraction7 true low high od pos unit step ≤ 7 * high := by
  have hi : fractionIndex true od pos unit step ≤ 6 := by
    unfold fractionIndex
    simp only [if_true]
    have := Nat.mod_lt (primes[(od * pos / unit + step) % 7]!) (by decide : 0 < 7)
    omega
  unfold fraction7
  generalize fractionIndex true od pos unit step = i at hi
  have h1 : 0 ≤ (high - low) * (i : Int) := Int.mul_nonneg (by omega) (by omega)
  have h2 : (high - low) * (i : Int) ≤ (high - low) * 6 := Int.mul_le_mul_of_nonneg_left (by omega) (by omega)
  omega

/-- C152, refuted: without scrambling, the index is not reduced: with enough patches more than the maximal fraction moves. -/
theorem C152_fractions_refuted : ∃ (low high : Int) (od pos unit step : Nat), low ≤ high ∧ 0 < unit ∧
    7 * high < fraction7 false low high od pos unit step :=
  ⟨2, 6, 1, 8, 1, 0, by decide, by decide, by decide⟩

end Verif.Apps.Pic
