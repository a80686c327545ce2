import Verif.Apps.Halo
import Verif.Apps.ProgLemmas
set_option autoImplicit false

/-!
# Theorems about halo3d-26
-/

namespace Verif.Apps.Halo

/-- One step up, down or not at all on a ring. -/
def mv (x d p : Int) : Int := (x + d + p).tmod p

theorem mv_zero {x p : Int} (h0 : 0 ≤ x) (h1 : x < p) : mv x 0 p = x := by
  unfold mv
  rw [Int.add_zero, Int.tmod_eq_emod_of_nonneg (by omega), Int.add_emod_right, Int.emod_eq_of_lt h0 h1]

theorem mv_up {x p : Int} (h0 : 0 ≤ x) (h1 : x < p) : mv x 1 p = if x = p - 1 then 0 else x + 1 := by
  unfold mv
  rw [Int.tmod_eq_emod_of_nonneg (by omega), Int.add_emod_right]
  split
  · next h => rw [h, show p - 1 + 1 = p by omega, Int.emod_self]
  · exact Int.emod_eq_of_lt (by omega) (by omega)

theorem mv_down {x p : Int} (h0 : 0 ≤ x) (h1 : x < p) : mv x (-1) p = if x = 0 then p - 1 else x - 1 := by
  unfold mv
  rw [Int.tmod_eq_emod_of_nonneg (by omega)]
  split
  · next h => rw [h, show (0 : Int) + -1 + p = p - 1 by omega]; exact Int.emod_eq_of_lt (by omega) (by omega)
  · rw [show x + -1 + p = x - 1 + p by omega, Int.add_emod_right]; exact Int.emod_eq_of_lt (by omega) (by omega)

theorem mv_range {x d p : Int} (h0 : 0 ≤ x) (h1 : x < p) (hd : d = -1 ∨ d = 0 ∨ d = 1) : 0 ≤ mv x d p ∧ mv x d p < p := by
  rcases hd with rfl | rfl | rfl
  · rw [mv_down h0 h1]; split <;> omega
  · rw [mv_zero h0 h1]; omega
  · rw [mv_up h0 h1]; split <;> omega

/-- Steps can be taken back. -/
theorem mv_back {x y d p : Int} (x0 : 0 ≤ x) (x1 : x < p) (y0 : 0 ≤ y) (y1 : y < p) (hd : d = -1 ∨ d = 0 ∨ d = 1) :
    mv y d p = x ↔ mv x (-d) p = y := by
  rcases hd with rfl | rfl | rfl
  · rw [show -(-1 : Int) = 1 by omega, mv_down y0 y1, mv_up x0 x1]; split <;> split <;> omega
  · rw [show -(0 : Int) = 0 by omega, mv_zero y0 y1, mv_zero x0 x1]; omega
  · rw [mv_up y0 y1, mv_down x0 x1]; split <;> split <;> omega

/-- Positional numbers are unique. -/
theorem digits_unique {p a b c d : Int} (b0 : 0 ≤ b) (b1 : b < p) (d0 : 0 ≤ d) (d1 : d < p) : a * p + b = c * p + d ↔ a = c ∧ b = d := by
  constructor
  · intro h
    have h1 : (a * p + b) % p = (c * p + d) % p := by rw [h]
    rw [Int.add_comm (a * p), Int.add_comm (c * p), Int.add_mul_emod_self_right, Int.add_mul_emod_self_right, Int.emod_eq_of_lt b0 b1, Int.emod_eq_of_lt d0 d1] at h1
    refine ⟨?_, h1⟩
    have : a * p = c * p := by omega
    exact Int.eq_of_mul_eq_mul_right (by omega) this
  · rintro ⟨rfl, rfl⟩; rfl

/-- What the options must satisfy: a grid of processes. -/
structure Grid (o : Opts) : Prop where
  x : 0 < o.pex
  y : 0 < o.pey
  z : 0 < o.pez
  size : o.pex * o.pey * o.pez = o.size

/-- The position of a rank is inside the grid and determines it. -/
theorem position {o : Opts} (g : Grid o) {r : Int} (h0 : 0 ≤ r) (h1 : r < o.size) :
    ∃ x y z, getPosition o r = (x, y, z) ∧ 0 ≤ x ∧ x < o.pex ∧ 0 ≤ y ∧ y < o.pey ∧ 0 ≤ z ∧ z < o.pez ∧ r = z * (o.pex * o.pey) + (y * o.pex + x) := by
  have hx := g.x
  have hy := g.y
  have hxy : 0 < o.pex * o.pey := Int.mul_pos hx hy
  refine ⟨r % (o.pex * o.pey) % o.pex, r % (o.pex * o.pey) / o.pex, r / (o.pex * o.pey), ?_, Int.emod_nonneg _ (by omega), Int.emod_lt_of_pos _ hx, ?_, ?_, ?_, ?_, ?_⟩
  · have hp : 0 ≤ r % (o.pex * o.pey) := Int.emod_nonneg _ (by omega)
    unfold getPosition
    simp only [Int.tmod_eq_emod_of_nonneg h0, Int.tdiv_eq_ediv_of_nonneg h0, Int.tmod_eq_emod_of_nonneg hp, Int.tdiv_eq_ediv_of_nonneg hp]
    split
    · rfl
    · next h => rw [show r % (o.pex * o.pey) % o.pex = 0 from Decidable.not_not.mp h]
  · exact Int.ediv_nonneg (Int.emod_nonneg _ (by omega)) (by omega)
  · rw [Int.ediv_lt_iff_lt_mul hx, Int.mul_comm o.pey]; exact Int.emod_lt_of_pos _ hxy
  · exact Int.ediv_nonneg h0 (by omega)
  · rw [Int.ediv_lt_iff_lt_mul hxy, Int.mul_comm o.pez, g.size]; exact h1
  · have e1 := Int.mul_ediv_add_emod (r % (o.pex * o.pey)) o.pex
    have e2 := Int.mul_ediv_add_emod r (o.pex * o.pey)
    rw [Int.mul_comm (r % (o.pex * o.pey) / o.pex), e1, Int.mul_comm (r / _), e2]

/-- The offset of a neighbour. -/
def Off (d : Int) : Prop := d = -1 ∨ d = 0 ∨ d = 1

/-- The neighbours of a rank, in coordinates. -/
theorem neighbour_iff {o : Opts} (g : Grid o) {r s : Int} (h0 : 0 ≤ r) (h1 : r < o.size) {x y z x' y' z' : Int} (hr : getPosition o r = (x, y, z))
    (hs : s = z' * (o.pex * o.pey) + (y' * o.pex + x')) (x0 : 0 ≤ x') (x1 : x' < o.pex) (y0 : 0 ≤ y') (y1 : y' < o.pey) (dx dy dz : Int) (ox : Off dx) (oy : Off dy) (oz : Off dz) :
    neighbour o r dx dy dz = s ↔ mv x dx o.pex = x' ∧ mv y dy o.pey = y' ∧ mv z dz o.pez = z' := by
  obtain ⟨a, b, c, hp, a0, a1, b0, b1, c0, c1, _⟩ := position g h0 h1
  rw [hr] at hp
  cases hp
  have hxy : 0 < o.pex * o.pey := Int.mul_pos g.x g.y
  have mx := mv_range a0 a1 ox
  have my := mv_range b0 b1 oy
  have low : ∀ u v : Int, 0 ≤ u → u < o.pey → 0 ≤ v → v < o.pex → 0 ≤ u * o.pex + v ∧ u * o.pex + v < o.pex * o.pey := by
    intro u v u0 u1 v0 v1
    have h1 : 0 ≤ u * o.pex := Int.mul_nonneg u0 (by omega)
    have h2 : (u + 1) * o.pex ≤ o.pey * o.pex := Int.mul_le_mul_of_nonneg_right (by omega) (by omega)
    rw [Int.add_mul, Int.one_mul] at h2
    rw [Int.mul_comm o.pex]
    omega
  unfold neighbour toRank
  rw [hr, hs]
  show mv z dz o.pez * (o.pex * o.pey) + mv y dy o.pey * o.pex + mv x dx o.pex = _ ↔ _
  rw [Int.add_assoc, digits_unique (low _ _ my.1 my.2 mx.1 mx.2).1 (low _ _ my.1 my.2 mx.1 mx.2).2 (low _ _ y0 y1 x0 x1).1 (low _ _ y0 y1 x0 x1).2,
    digits_unique mx.1 mx.2 x0 x1]
  constructor
  · rintro ⟨h1, h2, h3⟩; exact ⟨h3, h2, h1⟩
  · rintro ⟨h1, h2, h3⟩; exact ⟨h3, h2, h1⟩

/-- All offsets are at most one. -/
theorem off_of_mem {o : Opts} {e : Ex} (h : e ∈ exchanges o) : Off e.dx ∧ Off e.dy ∧ Off e.dz := by
  simp only [exchanges, List.mem_cons, List.not_mem_nil, or_false] at h
  rcases h with rfl | rfl | rfl | rfl | rfl | rfl | rfl | rfl | rfl | rfl | rfl | rfl | rfl | rfl | rfl | rfl | rfl | rfl <;> simp [Off]

/-- The kinds of exchanges: faces in x, y, z and edges along z, x, y. -/
def kinds : List (Int × Int × Int × Fin 6) :=
  [(1, 0, 0, 0), (-1, 0, 0, 0), (0, 1, 0, 1), (0, -1, 0, 1), (0, 0, 1, 2), (0, 0, -1, 2),
   (-1, -1, 0, 3), (0, -1, -1, 4), (1, -1, 0, 3), (0, -1, 1, 4), (-1, 0, 1, 5), (1, 0, 1, 5), (-1, 0, -1, 5), (1, 0, -1, 5),
   (-1, 1, 0, 3), (0, 1, 1, 4), (1, 1, 0, 3), (0, 1, -1, 4)]

/-- The tag of a kind. -/
def kindTag (k : Fin 6) : Int := match k with | 0 => 1000 | 1 => 2000 | 2 => 4000 | _ => 8000

/-- The count of a kind. -/
def kindCount (o : Opts) (k : Fin 6) : Int :=
  match k with | 0 => o.ny * o.nz * o.vars | 1 => o.nx * o.nz * o.vars | 2 => o.nx * o.ny * o.vars | 3 => o.nz * o.vars | 4 => o.nx * o.vars | 5 => o.ny * o.vars

theorem exchanges_eq (o : Opts) : exchanges o = kinds.map fun k => ⟨k.1, k.2.1, k.2.2.1, kindTag k.2.2.2, kindCount o k.2.2.2⟩ := rfl

/-- A function of an offset, by its three values. -/
def sel (a b c : Bool) (d : Int) : Bool := if d = -1 then a else if d = 0 then b else c

/-- The group of kinds that share a tag. -/
def grp (k : Fin 6) : Fin 4 := match k with | 0 => 0 | 1 => 1 | 2 => 2 | _ => 3

/-- The exchanges that lead from one rank to another are, by tag, the same in both directions, in the
same order. -/
theorem both_ways : ∀ (xa xb xc ya yb yc za zb zc : Bool),
    ((xb && (xa || xc)) = true → (xa && xc) = true) → ((yb && (ya || yc)) = true → (ya && yc) = true) → ((zb && (za || zc)) = true → (za && zc) = true) →
    ∀ g : Fin 4, ((kinds.filter fun k => sel xa xb xc k.1 && sel ya yb yc k.2.1 && sel za zb zc k.2.2.1 && decide (grp k.2.2.2 = g)).map fun k => k.2.2.2) =
      ((kinds.filter fun k => sel xc xb xa k.1 && sel yc yb ya k.2.1 && sel zc zb za k.2.2.1 && decide (grp k.2.2.2 = g)).map fun k => k.2.2.2) := by
  decide +kernel

/-- What the positions of two ranks on a ring have to do with each other. -/
theorem ring {x x' p : Int} (x0 : 0 ≤ x) (x1 : x < p) (y0 : 0 ≤ x') (y1 : x' < p) :
    (decide (mv x 0 p = x') && (decide (mv x (-1) p = x') || decide (mv x 1 p = x'))) = true → (decide (mv x (-1) p = x') && decide (mv x 1 p = x')) = true := by
  rw [mv_zero x0 x1, mv_up x0 x1, mv_down x0 x1]
  simp only [Bool.and_eq_true, Bool.or_eq_true, decide_eq_true_eq]
  split <;> split <;> omega

theorem sel_mv (f : Int → Bool) {d : Int} (h : Off d) : f d = sel (f (-1)) (f 0) (f 1) d := by
  rcases h with rfl | rfl | rfl <;> rfl

theorem sel_neg (f : Int → Bool) {d : Int} (h : Off d) : f (-d) = sel (f 1) (f 0) (f (-1)) d := by
  rcases h with rfl | rfl | rfl <;> rfl

theorem off_of_kind {k : Int × Int × Int × Fin 6} (h : k ∈ kinds) : Off k.1 ∧ Off k.2.1 ∧ Off k.2.2.1 := by
  have : ∀ k ∈ kinds, (k.1 = -1 ∨ k.1 = 0 ∨ k.1 = 1) ∧ (k.2.1 = -1 ∨ k.2.1 = 0 ∨ k.2.1 = 1) ∧ (k.2.2.1 = -1 ∨ k.2.2.1 = 0 ∨ k.2.2.1 = 1) := by decide
  exact this k h

theorem filterMap_map_filter {α β : Type} (p : α → Bool) (c : α → β) (l : List α) :
    (l.filterMap fun a => if p a = true then some (c a) else none) = (l.filter p).map c := by
  induction l with
  | nil => rfl
  | cons a l ih => cases h : p a <;> simp [h, ih]

theorem filterMap_flatMap' {α β γ : Type} (f : β → Option γ) (g : α → List β) (l : List α) :
    (l.flatMap g).filterMap f = l.flatMap fun a => (g a).filterMap f := by
  induction l with
  | nil => rfl
  | cons a l ih => simp [List.flatMap_cons, ih]

theorem flatMap_option {α β : Type} (p : α → Bool) (c : α → β) (l : List α) :
    (l.flatMap fun a => if p a = true then [c a] else []) = (l.filter p).map c := by
  induction l with
  | nil => rfl
  | cons a l ih => cases h : p a <;> simp [h, List.flatMap_cons, ih]

/-- The receives of an iteration. -/
theorem recvs_iter (o : Opts) (r s t : Int) : recvs (iteration o r) s t =
    (kinds.filter fun k => decide (neighbour o r k.1 k.2.1 k.2.2.1 = s ∧ kindTag k.2.2.2 = t)).map fun k => kindCount o k.2.2.2 := by
  unfold recvs iteration
  rw [exchanges_eq, List.flatMap_map, ← flatMap_option]
  simp only [List.filterMap_cons, isRecv, List.filterMap_append, List.filterMap_nil, List.append_nil, filterMap_flatMap', calls]
  congr 1
  funext k
  by_cases h : neighbour o r k.1 k.2.1 k.2.2.1 = s ∧ kindTag k.2.2.2 = t <;> simp [h]

/-- The sends of an iteration. -/
theorem sends_iter (o : Opts) (r s t : Int) : sends (iteration o r) s t =
    (kinds.filter fun k => decide (neighbour o r k.1 k.2.1 k.2.2.1 = s ∧ kindTag k.2.2.2 = t)).map fun k => kindCount o k.2.2.2 := by
  unfold sends iteration
  rw [exchanges_eq, List.flatMap_map, ← flatMap_option]
  simp only [List.filterMap_cons, isSend, List.filterMap_append, List.filterMap_nil, List.append_nil, filterMap_flatMap', calls]
  congr 1
  funext k
  by_cases h : neighbour o r k.1 k.2.1 k.2.2.1 = s ∧ kindTag k.2.2.2 = t <;> simp [h]

theorem tag_grp {g k : Fin 6} : kindTag k = kindTag g ↔ grp k = grp g := by
  revert g k; decide

/-- In an iteration, what a rank sends to another is what the other receives from it. -/
theorem iter_match {o : Opts} (g : Grid o) {r s : Int} (h0 : 0 ≤ r) (h1 : r < o.size) (h2 : 0 ≤ s) (h3 : s < o.size) (t : Int) :
    sends (iteration o s) r t = recvs (iteration o r) s t := by
  rw [sends_iter, recvs_iter]
  by_cases ht : ∃ q : Fin 6, t = kindTag q
  · obtain ⟨q, rfl⟩ := ht
    obtain ⟨x, y, z, hr, x0, x1, y0, y1, z0, z1, er⟩ := position g h0 h1
    obtain ⟨x', y', z', hs, x0', x1', y0', y1', z0', z1', es⟩ := position g h2 h3
    have e1 : ∀ k ∈ kinds, decide (neighbour o r k.1 k.2.1 k.2.2.1 = s ∧ kindTag k.2.2.2 = kindTag q) =
        (sel (decide (mv x (-1) o.pex = x')) (decide (mv x 0 o.pex = x')) (decide (mv x 1 o.pex = x')) k.1 &&
          sel (decide (mv y (-1) o.pey = y')) (decide (mv y 0 o.pey = y')) (decide (mv y 1 o.pey = y')) k.2.1 &&
          sel (decide (mv z (-1) o.pez = z')) (decide (mv z 0 o.pez = z')) (decide (mv z 1 o.pez = z')) k.2.2.1 && decide (grp k.2.2.2 = grp q)) := by
      intro k hk
      obtain ⟨ox, oy, oz⟩ := off_of_kind hk
      rw [← sel_mv (fun d => decide (mv x d o.pex = x')) ox, ← sel_mv (fun d => decide (mv y d o.pey = y')) oy, ← sel_mv (fun d => decide (mv z d o.pez = z')) oz,
        ← Bool.decide_and, ← Bool.decide_and, ← Bool.decide_and, decide_eq_decide, neighbour_iff g h0 h1 hr es x0' x1' y0' y1' _ _ _ ox oy oz, tag_grp, and_assoc, and_assoc, and_assoc, and_assoc]
    have e2 : ∀ k ∈ kinds, decide (neighbour o s k.1 k.2.1 k.2.2.1 = r ∧ kindTag k.2.2.2 = kindTag q) =
        (sel (decide (mv x 1 o.pex = x')) (decide (mv x 0 o.pex = x')) (decide (mv x (-1) o.pex = x')) k.1 &&
          sel (decide (mv y 1 o.pey = y')) (decide (mv y 0 o.pey = y')) (decide (mv y (-1) o.pey = y')) k.2.1 &&
          sel (decide (mv z 1 o.pez = z')) (decide (mv z 0 o.pez = z')) (decide (mv z (-1) o.pez = z')) k.2.2.1 && decide (grp k.2.2.2 = grp q)) := by
      intro k hk
      obtain ⟨ox, oy, oz⟩ := off_of_kind hk
      rw [← sel_neg (fun d => decide (mv x d o.pex = x')) ox, ← sel_neg (fun d => decide (mv y d o.pey = y')) oy, ← sel_neg (fun d => decide (mv z d o.pez = z')) oz,
        ← Bool.decide_and, ← Bool.decide_and, ← Bool.decide_and, decide_eq_decide, neighbour_iff g h2 h3 hs er x0 x1 y0 y1 _ _ _ ox oy oz, tag_grp,
        mv_back x0 x1 x0' x1' ox, mv_back y0 y1 y0' y1' oy, mv_back z0 z1 z0' z1' oz, and_assoc, and_assoc, and_assoc, and_assoc]
    rw [List.filter_congr e1, List.filter_congr e2]
    have b := both_ways (decide (mv x (-1) o.pex = x')) (decide (mv x 0 o.pex = x')) (decide (mv x 1 o.pex = x'))
      (decide (mv y (-1) o.pey = y')) (decide (mv y 0 o.pey = y')) (decide (mv y 1 o.pey = y'))
      (decide (mv z (-1) o.pez = z')) (decide (mv z 0 o.pez = z')) (decide (mv z 1 o.pez = z'))
      (ring x0 x1 x0' x1') (ring y0 y1 y0' y1') (ring z0 z1 z0' z1') (grp q)
    have b' := congrArg (List.map (kindCount o)) b
    rw [List.map_map, List.map_map] at b'
    exact b'.symm
  · have e : ∀ (u v : Int), (kinds.filter fun k => decide (neighbour o u k.1 k.2.1 k.2.2.1 = v ∧ kindTag k.2.2.2 = t)) = [] := by
      intro u v
      rw [List.filter_eq_nil_iff]
      intro k _ hk
      exact ht ⟨k.2.2.2, (of_decide_eq_true hk).2.symm⟩
    rw [e, e]

/-- A call without its arguments, but for collectives. -/
def shape : Instr → Instr
  | .isend _ _ _ => .comp
  | .irecv _ _ _ => .comp
  | i => i

theorem colls_shape (l : List Instr) (ms : List Int) : colls (l.map shape) ms = colls l ms := by
  unfold colls
  rw [List.filterMap_map]
  congr 1
  funext i
  cases i <;> rfl

theorem blocks_length (o : Opts) (r : Int) : (blocks o r).length = o.repeats.toNat + 3 := by simp [blocks]

/-- The blocks of all ranks have the same shape. -/
theorem blocks_get {o : Opts} {r : Int} {i : Nat} {b : List Instr} (h : (blocks o r)[i]? = some b) :
    (b = [barrier o] ∧ ∀ s, (blocks o s)[i]? = some [barrier o]) ∨ (b = iteration o r ∧ ∀ s, (blocks o s)[i]? = some (iteration o s)) := by
  unfold blocks at h ⊢
  by_cases h1 : i < 2
  · have : i = 0 ∨ i = 1 := by omega
    rcases this with rfl | rfl <;> (left; simp at h ⊢; exact h.symm)
  · by_cases h2 : i < 2 + o.repeats.toNat
    · right
      have e : ∀ s, ([[barrier o], [barrier o]] ++ List.replicate o.repeats.toNat (iteration o s) ++ [[barrier o]])[i]? = some (iteration o s) := by
        intro s
        rw [List.getElem?_append_left (by simp; omega), List.getElem?_append_right (by simp; omega), List.getElem?_replicate, if_pos (by simp; omega)]
      rw [e] at h
      exact ⟨(Option.some.inj h).symm, e⟩
    · left
      have h3 : i = 2 + o.repeats.toNat := by
        have := (List.getElem?_eq_some_iff.mp h).1
        simp at this; omega
      have e : ∀ s, ([[barrier o], [barrier o]] ++ List.replicate o.repeats.toNat (iteration o s) ++ [[barrier o]])[i]? = some [barrier o] := by
        intro s
        rw [List.getElem?_append_right (by simp; omega)]
        simp [show i - (o.repeats.toNat + 1 + 1) = 0 by omega]
      rw [e] at h
      exact ⟨(Option.some.inj h).symm, e⟩

theorem iter_shape (o : Opts) (r s : Int) : (iteration o r).map shape = (iteration o s).map shape := rfl

theorem prog_shape (o : Opts) (r s : Int) : (blocks o r).flatten.map shape = (blocks o s).flatten.map shape := by
  unfold blocks
  simp only [List.flatten_append, List.map_append, List.map_flatten, List.map_replicate, iter_shape o r s]

theorem prog_length (o : Opts) (r s : Int) : (blocks o r).flatten.length = (blocks o s).flatten.length := by
  have := congrArg List.length (prog_shape o r s)
  rw [List.length_map, List.length_map] at this
  exact this

/-- Per block, the sends of a rank to another are the receives of the other from it. -/
theorem block_match {o : Opts} (g : Grid o) {r s : Int} (h0 : 0 ≤ r) (h1 : r < o.size) (h2 : 0 ≤ s) (h3 : s < o.size) (t : Int) :
    ∀ (i : Nat) a b, (blocks o r)[i]? = some a → (blocks o s)[i]? = some b → a.filterMap (isRecv s t) = b.filterMap (isSend r t) := by
  intro i a b ha hb
  rcases blocks_get ha with ⟨rfl, h⟩ | ⟨rfl, h⟩
  · rw [h s] at hb; cases hb; rfl
  · rw [h s] at hb; cases hb; exact (iter_match g h0 h1 h2 h3 t).symm

/-- `halo3d-26` with a grid of processes: what a rank sends to another with a tag is, in order and in
sizes, what the other receives from it with this tag. -/
theorem C128_halo_match {o : Opts} (g : Grid o) {W : World} (hW : app o = some W) {r s : Int} (hr : W.Has r) (hs : W.Has s) (t : Int) :
    sends (W.prog s) r t = recvs (W.prog r) s t := by
  unfold app at hW
  rw [if_neg (by simp [g.size])] at hW
  cases hW
  obtain ⟨r0, r1⟩ := hr
  obtain ⟨s0, s1⟩ := hs
  show sends (if 0 ≤ s ∧ s < o.size then _ else _) r t = recvs (if 0 ≤ r ∧ r < o.size then _ else _) s t
  rw [if_pos ⟨s0, s1⟩, if_pos ⟨r0, r1⟩]
  exact (flat_eq _ _ (by rw [blocks_length, blocks_length]) (block_match g r0 r1 s0 s1 t)).symm

/-- All messages fit. -/
theorem C128_halo_fits {o : Opts} (g : Grid o) {W : World} (hW : app o = some W) : Fits W := by
  intro s d t hs hd
  rw [C128_halo_match g hW hd hs t]
  refine ⟨rfl, fun i n m h1 h2 => ?_⟩
  rw [h1] at h2
  cases h2
  exact Int.le_refl _

/-- All neighbours are ranks. -/
theorem neighbour_has {o : Opts} (g : Grid o) {r : Int} (h0 : 0 ≤ r) (h1 : r < o.size) {dx dy dz : Int} (ox : Off dx) (oy : Off dy) (oz : Off dz) :
    0 ≤ neighbour o r dx dy dz ∧ neighbour o r dx dy dz < o.size := by
  obtain ⟨x, y, z, hr, x0, x1, y0, y1, z0, z1, er⟩ := position g h0 h1
  have mx := mv_range x0 x1 ox
  have my := mv_range y0 y1 oy
  have mz := mv_range z0 z1 oz
  have hx := g.x
  have e := (neighbour_iff g h0 h1 hr rfl mx.1 mx.2 my.1 my.2 dx dy dz ox oy oz (z' := mv z dz o.pez)).mpr ⟨rfl, rfl, rfl⟩
  rw [e, ← g.size]
  have hxy : 0 < o.pex * o.pey := Int.mul_pos g.x g.y
  have a1 : 0 ≤ mv y dy o.pey * o.pex := Int.mul_nonneg my.1 (by omega)
  have a2 : (mv y dy o.pey + 1) * o.pex ≤ o.pey * o.pex := Int.mul_le_mul_of_nonneg_right (by omega) (by omega)
  have a3 : 0 ≤ mv z dz o.pez * (o.pex * o.pey) := Int.mul_nonneg mz.1 (by omega)
  have a4 : (mv z dz o.pez + 1) * (o.pex * o.pey) ≤ o.pez * (o.pex * o.pey) := Int.mul_le_mul_of_nonneg_right (by omega) (by omega)
  rw [Int.add_mul, Int.one_mul] at a2 a4
  rw [Int.mul_comm o.pey] at a2
  rw [Int.mul_comm (o.pex * o.pey) o.pez]
  omega

/-- All messages stay in the world. -/
theorem C128_halo_inside {o : Opts} (g : Grid o) {W : World} (hW : app o = some W) : Inside W := by
  unfold app at hW
  rw [if_neg (by simp [g.size])] at hW
  cases hW
  rintro r ⟨r0, r1⟩ i hi
  replace hi : i ∈ (if 0 ≤ r ∧ r < o.size then (blocks o r).flatten else []) := hi
  rw [if_pos ⟨r0, r1⟩] at hi
  obtain ⟨b, hb, hib⟩ := List.mem_flatten.mp hi
  obtain ⟨j, hj⟩ := List.getElem?_of_mem hb
  rcases blocks_get hj with ⟨rfl, _⟩ | ⟨rfl, _⟩
  · simp only [List.mem_singleton] at hib
    subst hib
    constructor <;> (intro _ _ _ h; rcases h with h | h <;> cases h)
  · unfold iteration at hib
    simp only [List.mem_cons, List.mem_append, List.mem_flatMap, List.not_mem_nil, or_false] at hib
    rcases hib with rfl | ⟨e, he, hc⟩ | rfl
    · constructor <;> (intro _ _ _ h; rcases h with h | h <;> cases h)
    · obtain ⟨ox, oy, oz⟩ := off_of_mem he
      have hn := neighbour_has g r0 r1 ox oy oz
      simp only [calls, List.mem_cons, List.not_mem_nil, or_false] at hc
      rcases hc with rfl | rfl
      · constructor
        · intro _ _ _ h; rcases h with h | h <;> cases h
        · intro _ _ _ h; rcases h with h | h <;> cases h
          exact hn
      · constructor
        · intro _ _ _ h; rcases h with h | h <;> cases h
          exact hn
        · intro _ _ _ h; rcases h with h | h <;> cases h
    · constructor <;> (intro _ _ _ h; rcases h with h | h <;> cases h)

/-- At `MPI_Waitall`, all calls of the iteration have been made. -/
theorem at_waitall {o : Opts} {r : Int} {k i q : Nat} (ha : At (blocks o r) k i q) (hw : (blocks o r).flatten[k]? = some .waitall) :
    (blocks o r).flatten.take (k + 1) = ((blocks o r).take (i + 1)).flatten ∧ i < (blocks o r).length := by
  have hc := ha.call
  rw [hw] at hc
  cases hb : (blocks o r)[i]? with
  | none => rw [hb] at hc; simp at hc
  | some b =>
    have hi := (List.getElem?_eq_some_iff.mp hb).1
    refine ⟨?_, hi⟩
    have ht := ha.take
    have e : (blocks o r).take (i + 1) = (blocks o r).take i ++ (blocks o r)[i]?.toList := List.take_add_one
    rw [ht, e, List.flatten_append, hb]
    rw [hb] at hc
    simp only [Option.getD_some, Option.toList_some, List.flatten_cons, List.flatten_nil, List.append_nil] at hc ⊢
    congr 1
    apply List.take_of_length_le
    rcases blocks_get hb with ⟨rfl, _⟩ | ⟨rfl, _⟩
    · have := (List.getElem?_eq_some_iff.mp hc.symm).1
      simp at this ⊢
    · have hq : ∀ (q : Nat), q < 37 → ((iteration o r).map shape)[q]? ≠ some .waitall := by
        intro q hq
        have : ∀ q : Fin 37, ((iteration o r).map shape)[q.val]? ≠ some .waitall := by
          intro q h
          have e : (iteration o r).map shape = List.replicate 37 .comp ++ [.waitall] := rfl
          rw [e] at h
          revert q
          decide
        exact this ⟨q, hq⟩
      have hl : (iteration o r).length = 38 := rfl
      rw [hl]
      apply Nat.le_of_not_lt
      intro hlt
      apply hq q (by omega)
      rw [List.getElem?_map, ← hc]
      rfl

theorem take_flat_len {o : Opts} (r s : Int) (m : Nat) : ((blocks o r).take m).flatten.length = ((blocks o s).take m).flatten.length := by
  have h := flat_len (f := fun i => some i) (g := fun i => some i) (blocks o r) (blocks o s) (by rw [blocks_length, blocks_length])
    (by
      intro i a b ha hb
      rcases blocks_get ha with ⟨rfl, h⟩ | ⟨rfl, h⟩
      · rw [h s] at hb; cases hb; rfl
      · rw [h s] at hb; cases hb; rfl) m
  have e : ∀ l : List Instr, l.filterMap (fun i => some i) = l := by
    intro l
    induction l with
    | nil => rfl
    | cons x l ih => rw [List.filterMap_cons, ih]
  rw [e, e] at h
  exact h

theorem take_le {β : Type} (f : Instr → Option β) (l : List Instr) {m n : Nat} (h : m ≤ n) : ((l.take m).filterMap f).length ≤ ((l.take n).filterMap f).length := by
  obtain ⟨c, rfl⟩ := Nat.exists_eq_add_of_le h
  rw [List.take_add, List.filterMap_append, List.length_append]
  omega

/-- `halo3d-26` ends, whatever sends are eager and in whatever order the ranks run. -/
theorem C128_halo_ends {o : Opts} (g : Grid o) {W : World} (hW : app o = some W) (eager : Int → Prop) : Completes W eager := by
  unfold app at hW
  rw [if_neg (by simp [g.size])] at hW
  cases hW
  apply completes_of
  rintro pc ⟨u, ⟨u0, u1⟩, hu⟩
  replace hu : pc u < (if 0 ≤ u ∧ u < o.size then (blocks o u).flatten else []).length := hu
  rw [if_pos ⟨u0, u1⟩] at hu
  obtain ⟨r, r0, r1, _, hmin⟩ := argmin (N := o.size) (fun _ => True) pc ⟨u, u0, u1, trivial⟩
  have prg : ∀ q, 0 ≤ q → q < o.size → (if 0 ≤ q ∧ q < o.size then (blocks o q).flatten else []) = (blocks o q).flatten := by
    intro q q0 q1; rw [if_pos ⟨q0, q1⟩]
  have hlt : pc r < (blocks o r).flatten.length := by
    rw [prog_length o r u]; have := hmin u u0 u1 trivial; omega
  refine ⟨r, ⟨r0, r1⟩, ?_⟩
  unfold Ready
  simp only [prg r r0 r1]
  -- calls of other ranks that are at least as far
  have matched : ∀ (j : Nat) (q t : Int), 0 ≤ q → q < o.size → j < pc r → (blocks o r).flatten[pc r]? = some .waitall →
      ((recvs ((blocks o r).flatten.take (j + 1)) q t).length ≤ (sends ((blocks o q).flatten.take (pc q + 1)) r t).length ∧
       (sends ((blocks o r).flatten.take (j + 1)) q t).length ≤ (recvs ((blocks o q).flatten.take (pc q + 1)) r t).length) := by
    intro j q t q0 q1 hj hw
    obtain ⟨i, p, ha⟩ := exists_at (blocks o r) (pc r)
    obtain ⟨e1, hi⟩ := at_waitall ha hw
    have e2 : (blocks o q).flatten.take (pc r + 1) = ((blocks o q).take (i + 1)).flatten := by
      have hlen : ((blocks o q).take (i + 1)).flatten.length = pc r + 1 := by
        rw [take_flat_len q r, ← e1, List.length_take]; omega
      have hpre : (blocks o q).flatten = ((blocks o q).take (i + 1)).flatten ++ ((blocks o q).drop (i + 1)).flatten := by
        rw [← List.flatten_append, List.take_append_drop]
      rw [hpre, List.take_append_of_le_length (by omega), List.take_of_length_le (by omega)]
    have hq := hmin q q0 q1 trivial
    have l1 := flat_len (blocks o r) (blocks o q) (by rw [blocks_length, blocks_length])
      (fun i a b ha hb => congrArg List.length (block_match g r0 r1 q0 q1 t i a b ha hb)) (i + 1)
    have l2 := flat_len (blocks o q) (blocks o r) (by rw [blocks_length, blocks_length])
      (fun i a b ha hb => congrArg List.length (block_match g q0 q1 r0 r1 t i a b ha hb)) (i + 1)
    rw [← e1, ← e2] at l1
    rw [← e1, ← e2] at l2
    constructor
    · exact Nat.le_trans (take_le _ _ (by omega)) (Nat.le_trans (Nat.le_of_eq l1) (take_le _ _ (by omega)))
    · exact Nat.le_trans (take_le _ _ (by omega)) (Nat.le_trans (Nat.le_of_eq l2.symm) (take_le _ _ (by omega)))
  have hin := C128_halo_inside g (W := ⟨o.size, fun r => if 0 ≤ r ∧ r < o.size then (blocks o r).flatten else []⟩) (by unfold app; rw [if_neg (by simp [g.size])]) r ⟨r0, r1⟩
  simp only [prg r r0 r1] at hin
  cases hc : (blocks o r).flatten[pc r]? with
  | none => rw [List.getElem?_eq_none_iff] at hc; omega
  | some c =>
    have hmem := List.mem_of_getElem? hc
    have hshape : ∀ c', c' ∈ (blocks o r).flatten → (∀ d t n, c' ≠ .send d t n) ∧ (∀ d t n, c' ≠ .recv d t n) ∧ (∀ ms k n, c' = .coll ms k n → ms = world o) := by
      intro c' hc'
      obtain ⟨b, hb, hib⟩ := List.mem_flatten.mp hc'
      obtain ⟨j, hj⟩ := List.getElem?_of_mem hb
      rcases blocks_get hj with ⟨rfl, _⟩ | ⟨rfl, _⟩
      · simp only [List.mem_singleton] at hib
        subst hib
        refine ⟨(by intro _ _ _ h; cases h), (by intro _ _ _ h; cases h), (by intro _ _ _ h; cases h; rfl)⟩
      · unfold iteration at hib
        simp only [List.mem_cons, List.mem_append, List.mem_flatMap, List.not_mem_nil, or_false] at hib
        rcases hib with rfl | ⟨e, he, hc⟩ | rfl
        · refine ⟨(by intro _ _ _ h; cases h), (by intro _ _ _ h; cases h), (by intro _ _ _ h; cases h)⟩
        · simp only [calls, List.mem_cons, List.not_mem_nil, or_false] at hc
          rcases hc with rfl | rfl <;> refine ⟨(by intro _ _ _ h; cases h), (by intro _ _ _ h; cases h), (by intro _ _ _ h; cases h)⟩
        · refine ⟨(by intro _ _ _ h; cases h), (by intro _ _ _ h; cases h), (by intro _ _ _ h; cases h)⟩
    cases c with
    | comp => trivial
    | isend _ _ _ => trivial
    | irecv _ _ _ => trivial
    | send d t n => exact absurd rfl ((hshape _ hmem).1 d t n)
    | recv d t n => exact absurd rfl ((hshape _ hmem).2.1 d t n)
    | waitall =>
      intro j hj
      constructor
      · intro s t n hs
        have hq := (hin _ (List.mem_of_getElem? hs)).2 s t n (Or.inl rfl)
        unfold Arrived made
        simp only [prg r r0 r1, prg s hq.1 hq.2]
        exact (matched j s t hq.1 hq.2 hj hc).1
      · intro d t n hs
        have hq := (hin _ (List.mem_of_getElem? hs)).1 d t n (Or.inl rfl)
        right
        unfold Taken made
        simp only [prg r r0 r1, prg d hq.1 hq.2]
        exact (matched j d t hq.1 hq.2 hj hc).2
    | coll ms k n =>
      cases (hshape _ hmem).2.2 ms k n rfl
      intro q hq
      have hq' : 0 ≤ q ∧ q < o.size := by
        unfold world at hq
        obtain ⟨a, ha, rfl⟩ := List.mem_map.mp hq
        have := List.mem_range.mp ha
        constructor
        · exact Int.natCast_nonneg a
        · show (a : Int) < o.size; omega
      unfold made
      simp only [prg r r0 r1, prg q hq'.1 hq'.2]
      have e : colls ((blocks o r).flatten.take (pc r + 1)) (world o) = colls ((blocks o q).flatten.take (pc r + 1)) (world o) := by
        rw [← colls_shape, List.map_take, prog_shape o r q, ← List.map_take, colls_shape]
      rw [e]
      exact take_le _ _ (by have := hmin q hq'.1 hq'.2 trivial; omega)

/-- The ranks call the same collectives. -/
theorem C128_halo_agree {o : Opts} (g : Grid o) {W : World} (hW : app o = some W) : Agree W := by
  unfold app at hW
  rw [if_neg (by simp [g.size])] at hW
  cases hW
  rintro r ⟨r0, r1⟩ ms k n hi
  replace hi : Instr.coll ms k n ∈ (if 0 ≤ r ∧ r < o.size then (blocks o r).flatten else []) := hi
  rw [if_pos ⟨r0, r1⟩] at hi
  have hms : ms = world o := by
    obtain ⟨b, hb, hib⟩ := List.mem_flatten.mp hi
    obtain ⟨j, hj⟩ := List.getElem?_of_mem hb
    rcases blocks_get hj with ⟨rfl, _⟩ | ⟨rfl, _⟩
    · simp only [List.mem_singleton, barrier] at hib
      cases hib; rfl
    · unfold iteration at hib
      simp only [List.mem_cons, List.mem_append, List.mem_flatMap, List.not_mem_nil, or_false] at hib
      rcases hib with h | ⟨e, he, hc⟩ | h
      · cases h
      · simp only [calls, List.mem_cons, List.not_mem_nil, or_false] at hc
        rcases hc with h | h <;> cases h
      · cases h
  subst hms
  constructor
  · unfold world
    rw [List.mem_map]
    have r1' : r < o.size := r1
    exact ⟨r.toNat, List.mem_range.mpr (by omega), show ((r.toNat : Nat) : Int) = r by omega⟩
  · intro q hq
    have hq' : 0 ≤ q ∧ q < o.size := by
      unfold world at hq
      obtain ⟨a, ha, rfl⟩ := List.mem_map.mp hq
      have := List.mem_range.mp ha
      constructor
      · exact Int.natCast_nonneg a
      · show (a : Int) < o.size; omega
    refine ⟨hq', ?_⟩
    show colls (if 0 ≤ q ∧ q < o.size then _ else _) _ = colls (if 0 ≤ r ∧ r < o.size then _ else _) _
    rw [if_pos hq', if_pos ⟨r0, r1⟩, ← colls_shape, prog_shape o q r, colls_shape]

/-- The program runs exactly on grids that have a place for each rank. -/
theorem C128_halo_refuses (o : Opts) : (app o).isSome ↔ o.pex * o.pey * o.pez = o.size := by
  unfold app
  by_cases h : o.pex * o.pey * o.pez = o.size <;> simp [h]

/-- The requests of an iteration fit in the array of 52 (halo3d-26.cc:288-290). -/
theorem C128_halo_requests (o : Opts) (r : Int) : ((iteration o r).filter fun i => i != .comp && i != .waitall).length ≤ 52 := by
  apply Nat.le_trans (Nat.le_trans (List.length_filter_le _ _) (Nat.le_refl 38)) (by omega)

/-- The eight neighbours at the vertices, halo3d-26.cc:234-249, are never sent anything, on every grid
with at least two processes in each direction. -/
theorem C128_halo_vertices_refuted {o : Opts} (g : Grid o) (hx : 2 ≤ o.pex) (hy : 2 ≤ o.pey) (hz : 2 ≤ o.pez) {W : World} (hW : app o = some W) {r : Int} (hr : W.Has r)
    {dx dy dz : Int} (ox : dx = -1 ∨ dx = 1) (oy : dy = -1 ∨ dy = 1) (oz : dz = -1 ∨ dz = 1) (t : Int) :
    sends (W.prog r) (neighbour o r dx dy dz) t = [] ∧ recvs (W.prog r) (neighbour o r dx dy dz) t = [] := by
  unfold app at hW
  rw [if_neg (by simp [g.size])] at hW
  cases hW
  obtain ⟨r0, r1⟩ := hr
  obtain ⟨x, y, z, hr, x0, x1, y0, y1, z0, z1, er⟩ := position g r0 r1
  have fx : Off dx := by unfold Off; omega
  have fy : Off dy := by unfold Off; omega
  have fz : Off dz := by unfold Off; omega
  have mx := mv_range x0 x1 fx
  have my := mv_range y0 y1 fy
  have hv := (neighbour_iff g r0 r1 hr rfl mx.1 mx.2 my.1 my.2 dx dy dz fx fy fz (z' := mv z dz o.pez)).mpr ⟨rfl, rfl, rfl⟩
  have stay : ∀ {a p d : Int}, 0 ≤ a → a < p → 2 ≤ p → (d = -1 ∨ d = 1) → mv a 0 p ≠ mv a d p := by
    intro a p d a0 a1 hp hd
    rw [mv_zero a0 a1]
    rcases hd with rfl | rfl
    · rw [mv_down a0 a1]; split <;> omega
    · rw [mv_up a0 a1]; split <;> omega
  have hk : ∀ k ∈ kinds, k.1 = 0 ∨ k.2.1 = 0 ∨ k.2.2.1 = 0 := by decide
  have none_ : ∀ k ∈ kinds, neighbour o r k.1 k.2.1 k.2.2.1 ≠ neighbour o r dx dy dz := by
    intro k hkm
    obtain ⟨a, b, c⟩ := off_of_kind hkm
    rw [hv, Ne, neighbour_iff g r0 r1 hr rfl mx.1 mx.2 my.1 my.2 _ _ _ a b c]
    rintro ⟨h1, h2, h3⟩
    rcases hk k hkm with h | h | h
    · rw [h] at h1; exact stay x0 x1 hx ox h1
    · rw [h] at h2; exact stay y0 y1 hy oy h2
    · rw [h] at h3; exact stay z0 z1 hz oz h3
  have it : (kinds.filter fun k => decide (neighbour o r k.1 k.2.1 k.2.2.1 = neighbour o r dx dy dz ∧ kindTag k.2.2.2 = t)) = [] := by
    rw [List.filter_eq_nil_iff]
    intro k hkm hd
    exact none_ k hkm (of_decide_eq_true hd).1
  have flat : ∀ (f : Instr → Option Int), f (barrier o) = none → (iteration o r).filterMap f = [] → (blocks o r).flatten.filterMap f = [] := by
    intro f h1 h2
    unfold blocks
    simp only [List.flatten_append, List.filterMap_append, List.flatten_cons, List.flatten_nil, List.append_nil, List.filterMap_cons, List.filterMap_nil, h1, List.nil_append]
    generalize o.repeats.toNat = m
    induction m with
    | zero => rfl
    | succ m ih => rw [List.replicate_succ, List.flatten_cons, List.filterMap_append, h2, ih]; rfl
  show sends (if 0 ≤ r ∧ r < o.size then _ else _) _ t = [] ∧ recvs (if 0 ≤ r ∧ r < o.size then _ else _) _ t = []
  rw [if_pos ⟨r0, r1⟩]
  constructor
  · exact flat _ rfl (by have := sends_iter o r (neighbour o r dx dy dz) t; unfold sends at this; rw [this, it]; rfl)
  · exact flat _ rfl (by have := recvs_iter o r (neighbour o r dx dy dz) t; unfold recvs at this; rw [this, it]; rfl)

/-- A grid of 1 x 3 x 1 processes with three different lengths: in an iteration rank 0 sends to rank 1
a face and four edges of two sizes, and rank 1 receives them in this order. -/
example : Grid ⟨3, 1, 3, 1, 10, 20, 30, 2, 1⟩ ∧ sends (iteration ⟨3, 1, 3, 1, 10, 20, 30, 2, 1⟩ 0) 1 8000 = [30, 10, 30, 10] ∧
    recvs (iteration ⟨3, 1, 3, 1, 10, 20, 30, 2, 1⟩ 1) 0 8000 = [30, 10, 30, 10] ∧ sends (iteration ⟨3, 1, 3, 1, 10, 20, 30, 2, 1⟩ 0) 1 2000 = [300] :=
  ⟨⟨by decide, by decide, by decide, by decide⟩, by decide, by decide, by decide⟩

/-- Rank 13 is in the middle of a grid of 27 processes; rank 0 is at a vertex of it. -/
example : Grid ⟨27, 3, 3, 3, 10, 20, 30, 2, 1⟩ ∧ neighbour ⟨27, 3, 3, 3, 10, 20, 30, 2, 1⟩ 13 (-1) (-1) (-1) = 0 ∧ neighbour ⟨27, 3, 3, 3, 10, 20, 30, 2, 1⟩ 13 0 (-1) (-1) = 1 :=
  ⟨⟨by decide, by decide, by decide, by decide⟩, by decide, by decide⟩

end Verif.Apps.Halo
