import Verif.Apps.LuleshSpec
import Verif.Apps.HaloProps
set_option autoImplicit false
/-
C158: the messages of an exchange of LULESH are those that touching ranks owe each other.
-/
namespace Verif.Apps.Lulesh

/-- Ranks and positions in the cube correspond. -/
theorem C158_position {tp r : Int} (ht : 0 < tp) (h0 : 0 ≤ r) (h1 : r < tp * tp * tp) : Located tp r (pos tp r) := by
  have htt : 0 < tp * tp := Int.mul_pos ht ht
  have hn : 0 < tp * tp * tp := Int.mul_pos htt ht
  have e1 : (tp * tp * tp) % (tp * tp * tp) = 0 := Int.emod_self
  have e2 : (tp * tp * tp) / (tp * tp * tp) = 1 := Int.ediv_self (by omega)
  have hp : pos tp r = ⟨r % tp, (r / tp) % tp, r / (tp * tp)⟩ := by
    unfold pos
    simp only [e1, e2]
    rw [if_neg (by omega)]
    simp
  rw [hp]
  refine ⟨Int.emod_nonneg _ (by omega), Int.emod_lt_of_pos _ ht, Int.emod_nonneg _ (by omega), Int.emod_lt_of_pos _ ht,
    Int.ediv_nonneg h0 (by omega), ?_, ?_⟩
  · dsimp only
    rw [Int.ediv_lt_iff_lt_mul htt, ← Int.mul_assoc]
    exact h1
  · dsimp only
    rw [← Int.ediv_ediv_of_nonneg (by omega)]
    have a1 := Int.mul_ediv_add_emod r tp
    have a2 := Int.mul_ediv_add_emod (r / tp) tp
    rw [Int.mul_comm (r / tp / tp), a2, Int.mul_comm, a1]

theorem located_eq {tp r s : Int} {p q : Pos} (hp : Located tp r p) (hq : Located tp s q) (h : r = s) : p = q := by
  obtain ⟨c0, c1, r0, r1, p0, p1, e⟩ := hp
  obtain ⟨c0', c1', r0', r1', p0', p1', e'⟩ := hq
  rw [e, e', Halo.digits_unique c0 c1 c0' c1', Halo.digits_unique r0 r1 r0' r1'] at h
  cases p; cases q
  simp_all

/-- The variables that a direction along one axis needs. -/
def axis (lo hi : Cond) (d : Int) : List Cond := if d = -1 then [lo] else if d = 1 then [hi] else []

/-- The variables that a direction needs. -/
def condsOf (a b c : Int) : List Cond := axis .rowMin .rowMax b ++ axis .colMin .colMax c ++ axis .planeMin .planeMax a

theorem recv_conds : ∀ e, e ∈ recvTable → e.block.conds = condsOf e.a e.b e.c ∧ near e.a ∧ near e.b ∧ near e.c := by decide
theorem send_conds : ∀ e, e ∈ sendTable → e.block.conds = condsOf e.a e.b e.c ∧ near e.a ∧ near e.b ∧ near e.c := by decide

theorem axis_row {tp : Int} {p : Pos} (h0 : 0 ≤ p.row) (h1 : p.row < tp) {d : Int} (hd : near d) :
    (axis .rowMin .rowMax d).all (holds tp p) = true ↔ 0 ≤ p.row + d ∧ p.row + d < tp := by
  rcases hd with rfl | rfl | rfl <;> simp [axis, holds] <;> omega
theorem axis_col {tp : Int} {p : Pos} (h0 : 0 ≤ p.col) (h1 : p.col < tp) {d : Int} (hd : near d) :
    (axis .colMin .colMax d).all (holds tp p) = true ↔ 0 ≤ p.col + d ∧ p.col + d < tp := by
  rcases hd with rfl | rfl | rfl <;> simp [axis, holds] <;> omega
theorem axis_plane {tp : Int} {p : Pos} (h0 : 0 ≤ p.plane) (h1 : p.plane < tp) {d : Int} (hd : near d) :
    (axis .planeMin .planeMax d).all (holds tp p) = true ↔ 0 ≤ p.plane + d ∧ p.plane + d < tp := by
  rcases hd with rfl | rfl | rfl <;> simp [axis, holds] <;> omega

/-- A direction leads to another rank of the cube exactly if its variables hold, and then to the
rank at that position. -/
theorem leads {tp r s : Int} {p q : Pos} (hp : Located tp r p) (hq : Located tp s q) {e : Post}
    (he : e.block.conds = condsOf e.a e.b e.c ∧ near e.a ∧ near e.b ∧ near e.c) :
    (e.block.conds.all (holds tp p) = true ∧ e.other tp r = s) ↔
      (e.a = q.plane - p.plane ∧ e.b = q.row - p.row ∧ e.c = q.col - p.col) := by
  obtain ⟨hc, na, nb, nc⟩ := he
  have hp' := hp
  have hq' := hq
  obtain ⟨c0, c1, r0, r1, p0, p1, ep⟩ := hp
  obtain ⟨c0', c1', r0', r1', p0', p1', eq⟩ := hq
  have hall : e.block.conds.all (holds tp p) = true ↔ (0 ≤ p.row + e.b ∧ p.row + e.b < tp) ∧
      (0 ≤ p.col + e.c ∧ p.col + e.c < tp) ∧ (0 ≤ p.plane + e.a ∧ p.plane + e.a < tp) := by
    rw [hc]
    unfold condsOf
    rw [List.all_append, List.all_append, Bool.and_eq_true, Bool.and_eq_true, axis_row r0 r1 nb, axis_col c0 c1 nc, axis_plane p0 p1 na, and_assoc]
  rw [hall]
  have hother : e.other tp r = ((p.plane + e.a) * tp + (p.row + e.b)) * tp + (p.col + e.c) := by
    unfold Post.other
    rw [ep]
    simp only [Int.add_mul, Int.mul_assoc]
    omega
  constructor
  · rintro ⟨⟨⟨b0, b1⟩, ⟨d0, d1⟩, ⟨a0, a1⟩⟩, ho⟩
    rw [hother, eq, Halo.digits_unique d0 d1 c0' c1', Halo.digits_unique b0 b1 r0' r1'] at ho
    obtain ⟨⟨h1, h2⟩, h3⟩ := ho
    omega
  · rintro ⟨h1, h2, h3⟩
    refine ⟨by omega, ?_⟩
    rw [hother, eq, h1, h2, h3]
    have t1 : p.plane + (q.plane - p.plane) = q.plane := by omega
    have t2 : p.row + (q.row - p.row) = q.row := by omega
    have t3 : p.col + (q.col - p.col) = q.col := by omega
    rw [t1, t2, t3]

/-- The rows of a table in a direction that are executed. -/
def pick (t : List Post) (flag planeOnly : Bool) (a b c : Int) : List Post :=
  t.filter fun e => decide (e.a = a ∧ e.b = b ∧ e.c = c) && ((!e.block.guard || flag) && (!planeOnly || e.block.lvl == .plane))

/-- The size of the message in a direction. -/
def sizeOf (a b c : Int) : Size :=
  if a = 0 then (if b = 0 then (if c = 0 then .one else .yz) else (if c = 0 then .xz else .z))
  else (if b = 0 then (if c = 0 then .xy else .y) else (if c = 0 then .x else .one))

theorem pick_send_near : ∀ (i j k : Fin 3) (flag po : Bool),
    (pick sendTable flag po (i.val - 1 : Int) (j.val - 1 : Int) (k.val - 1 : Int)).map (·.size) =
      if ¬ ((i.val - 1 : Int) = 0 ∧ (j.val - 1 : Int) = 0 ∧ (k.val - 1 : Int) = 0) ∧
        (flag = true ∨ before (i.val - 1 : Int) (j.val - 1 : Int) (k.val - 1 : Int)) ∧
        (po = true → oneAxis (i.val - 1 : Int) (j.val - 1 : Int) (k.val - 1 : Int))
      then [sizeOf (i.val - 1 : Int) (j.val - 1 : Int) (k.val - 1 : Int)] else [] := by decide +kernel

theorem pick_recv_near : ∀ (i j k : Fin 3) (flag po : Bool),
    (pick recvTable flag po (1 - i.val : Int) (1 - j.val : Int) (1 - k.val : Int)).map (·.size) =
      if ¬ ((i.val - 1 : Int) = 0 ∧ (j.val - 1 : Int) = 0 ∧ (k.val - 1 : Int) = 0) ∧
        (flag = true ∨ before (i.val - 1 : Int) (j.val - 1 : Int) (k.val - 1 : Int)) ∧
        (po = true → oneAxis (i.val - 1 : Int) (j.val - 1 : Int) (k.val - 1 : Int))
      then [sizeOf (i.val - 1 : Int) (j.val - 1 : Int) (k.val - 1 : Int)] else [] := by decide +kernel

theorem near_fin {d : Int} (h : near d) : ∃ i : Fin 3, d = i.val - 1 := by
  rcases h with rfl | rfl | rfl
  · exact ⟨0, by decide⟩
  · exact ⟨1, by decide⟩
  · exact ⟨2, by decide⟩

theorem pick_nil {t : List Post} (ht : ∀ e, e ∈ t → near e.a ∧ near e.b ∧ near e.c) {flag po : Bool} {a b c : Int}
    (h : ¬ (near a ∧ near b ∧ near c)) : pick t flag po a b c = [] := by
  unfold pick
  rw [List.filter_eq_nil_iff]
  intro e he hx
  rw [Bool.and_eq_true, decide_eq_true_eq] at hx
  obtain ⟨⟨rfl, rfl, rfl⟩, _⟩ := hx
  exact h (ht e he)

theorem eval_sizeOf (x : Exchange) (p q : Pos) (hne : ¬ (q.plane - p.plane = 0 ∧ q.row - p.row = 0 ∧ q.col - p.col = 0)) :
    (sizeOf (q.plane - p.plane) (q.row - p.row) (q.col - p.col)).eval x.dx x.dy x.dz * x.fields = shared x p q := by
  unfold sizeOf shared
  have e1 : (q.plane - p.plane = 0) ↔ q.plane = p.plane := by omega
  have e2 : (q.row - p.row = 0) ↔ q.row = p.row := by omega
  have e3 : (q.col - p.col = 0) ↔ q.col = p.col := by omega
  rw [e1, e2, e3] at hne
  simp only [e1, e2, e3]
  by_cases h1 : q.plane = p.plane <;> by_cases h2 : q.row = p.row <;> by_cases h3 : q.col = p.col <;>
    simp_all [Size.eval]

theorem map_counts (x : Exchange) {l : List Post} {m : List Size} (h : l.map (·.size) = m) :
    l.map (fun e => (x.count e : Int)) = m.map fun v => ((v.eval x.dx x.dy x.dz * x.fields : Nat) : Int) := by
  subst h
  rw [List.map_map]
  rfl

theorem pick_send (x : Exchange) (p q : Pos) :
    (pick sendTable x.flag x.planeOnly (q.plane - p.plane) (q.row - p.row) (q.col - p.col)).map (fun e => (x.count e : Int)) = wanted x p q := by
  unfold wanted
  by_cases hn : near (q.plane - p.plane) ∧ near (q.row - p.row) ∧ near (q.col - p.col)
  · obtain ⟨na, nb, nc⟩ := hn
    obtain ⟨i, hi⟩ := near_fin na
    obtain ⟨j, hj⟩ := near_fin nb
    obtain ⟨k, hk⟩ := near_fin nc
    have h := pick_send_near i j k x.flag x.planeOnly
    rw [← hi, ← hj, ← hk] at h
    rw [map_counts x h]
    by_cases ho : owes x p q
    · rw [if_pos ho, if_pos ⟨ho.2.2.2.1, ho.2.2.2.2.1, ho.2.2.2.2.2⟩, List.map_cons, List.map_nil, eval_sizeOf x p q ho.2.2.2.1]
    · rw [if_neg ho, if_neg (fun hh => ho ⟨na, nb, nc, hh.1, hh.2.1, hh.2.2⟩)]
      rfl
  · rw [pick_nil (fun e he => (send_conds e he).2) hn, if_neg (fun ho => hn ⟨ho.1, ho.2.1, ho.2.2.1⟩)]
    rfl

theorem pick_recv (x : Exchange) (p q : Pos) :
    (pick recvTable x.flag x.planeOnly (p.plane - q.plane) (p.row - q.row) (p.col - q.col)).map (fun e => (x.count e : Int)) = wanted x p q := by
  unfold wanted
  by_cases hn : near (q.plane - p.plane) ∧ near (q.row - p.row) ∧ near (q.col - p.col)
  · obtain ⟨na, nb, nc⟩ := hn
    obtain ⟨i, hi⟩ := near_fin na
    obtain ⟨j, hj⟩ := near_fin nb
    obtain ⟨k, hk⟩ := near_fin nc
    have h := pick_recv_near i j k x.flag x.planeOnly
    rw [← hi, ← hj, ← hk] at h
    have e1 : (1 - i.val : Int) = p.plane - q.plane := by omega
    have e2 : (1 - j.val : Int) = p.row - q.row := by omega
    have e3 : (1 - k.val : Int) = p.col - q.col := by omega
    rw [e1, e2, e3] at h
    rw [map_counts x h]
    by_cases ho : owes x p q
    · rw [if_pos ho, if_pos ⟨ho.2.2.2.1, ho.2.2.2.2.1, ho.2.2.2.2.2⟩, List.map_cons, List.map_nil, eval_sizeOf x p q ho.2.2.2.1]
    · rw [if_neg ho, if_neg (fun hh => ho ⟨na, nb, nc, hh.1, hh.2.1, hh.2.2⟩)]
      rfl
  · have hn' : ¬ (near (p.plane - q.plane) ∧ near (p.row - q.row) ∧ near (p.col - q.col)) := by
      unfold near at hn ⊢
      omega
    rw [pick_nil (fun e he => (recv_conds e he).2) hn', if_neg (fun ho => hn ⟨ho.1, ho.2.1, ho.2.2.1⟩)]
    rfl

theorem filterMap_congr {α β : Type} {f g : α → Option β} {l : List α} (h : ∀ x, x ∈ l → f x = g x) :
    l.filterMap f = l.filterMap g := by
  induction l with
  | nil => rfl
  | cons x l ih =>
    rw [List.filterMap_cons, List.filterMap_cons, h x List.mem_cons_self, ih (fun y hy => h y (List.mem_cons_of_mem _ hy))]

theorem filter_filterMap {α β : Type} (p : α → Bool) (f : α → Option β) (l : List α) :
    (l.filter p).filterMap f = l.filterMap fun x => if p x = true then f x else none := by
  induction l with
  | nil => rfl
  | cons x l ih =>
    rw [List.filter_cons, List.filterMap_cons]
    by_cases h : p x = true
    · rw [if_pos h, if_pos h, List.filterMap_cons, ih]
    · rw [if_neg h, if_neg h, ih]

theorem filterMap_if {α β : Type} (p : α → Bool) (g : α → β) (l : List α) :
    (l.filterMap fun x => if p x = true then some (g x) else none) = (l.filter p).map g := by
  induction l with
  | nil => rfl
  | cons x l ih =>
    rw [List.filterMap_cons, List.filter_cons]
    by_cases h : p x = true
    · rw [if_pos h, if_pos h, List.map_cons, ih]
    · rw [if_neg h, if_neg h, ih]

/-- The sends of a rank at `p` to a rank at `q` are the message that it owes. -/
theorem C158_sends {tp r s : Int} {x : Exchange} (hp : Located tp r (pos tp r)) (hq : Located tp s (pos tp s)) :
    sends (commSend tp x r) s x.tag = wanted x (pos tp r) (pos tp s) := by
  rw [← pick_send]
  unfold sends commSend active pick
  rw [List.filterMap_map, filter_filterMap, ← filterMap_if]
  apply filterMap_congr
  intro e he
  have hl := leads hp hq (send_conds e he)
  simp only [Function.comp, isSend, and_true, Block.runs, Bool.and_eq_true, decide_eq_true_eq]
  by_cases h1 : e.block.conds.all (holds tp (pos tp r)) = true <;> by_cases h2 : e.other tp r = s <;>
    simp only [h1, h2, true_and, false_and, if_true, if_false, and_true, and_false, Bool.false_eq_true] at hl ⊢
  · simp only [hl.1 trivial, and_self, true_and]
  · simp
    exact fun a b c => (hl.2 ⟨a, b, c⟩).elim
  · rw [if_neg (fun h => hl.2 h.1)]
  · rw [if_neg (fun h => hl.2 h.1)]

/-- The receives of a rank at `q` from a rank at `p` are the message that it is owed. -/
theorem C158_recvs {tp r s : Int} {x : Exchange} (hp : Located tp r (pos tp r)) (hq : Located tp s (pos tp s)) :
    recvs (commRecv tp x s) r x.tag = wanted x (pos tp r) (pos tp s) := by
  rw [← pick_recv]
  unfold recvs commRecv active pick
  rw [List.filterMap_map, filter_filterMap, ← filterMap_if]
  apply filterMap_congr
  intro e he
  have hl := leads hq hp (recv_conds e he)
  simp only [Function.comp, isRecv, and_true, Block.runs, Bool.and_eq_true, decide_eq_true_eq]
  by_cases h1 : e.block.conds.all (holds tp (pos tp s)) = true <;> by_cases h2 : e.other tp s = r <;>
    simp only [h1, h2, true_and, false_and, if_true, if_false, and_true, and_false, Bool.false_eq_true] at hl ⊢
  · simp only [hl.1 trivial, and_self, true_and]
  · simp
    exact fun a b c => (hl.2 ⟨a, b, c⟩).elim
  · rw [if_neg (fun h => hl.2 h.1)]
  · rw [if_neg (fun h => hl.2 h.1)]

end Verif.Apps.Lulesh
