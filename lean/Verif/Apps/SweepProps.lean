import Verif.Apps.Sweep
import Verif.Apps.ProgLemmas
set_option autoImplicit false

/-!
# Theorems about sweep3d
-/

namespace Verif.Apps.Sweep

/-- What the options must satisfy: a grid of processes and steps in z that divide the length. -/
structure Grid (o : Opts) : Prop where
  x : 0 < o.pex
  y : 0 < o.pey
  size : o.pex * o.pey = o.size
  kba : 0 < o.kba
  div : o.nz.tmod o.kba = 0

/-- The program runs exactly on grids that have a place for each rank, with a block size that divides the depth. -/
theorem C128_sweep_refuses (o : Opts) (h : 0 ≤ o.kba) : (app o).isSome ↔ 0 < o.kba ∧ o.nz.tmod o.kba = 0 ∧ o.pex * o.pey = o.size := by
  unfold app
  by_cases h0 : o.kba = 0
  · simp [h0]
  · by_cases h1 : o.nz.tmod o.kba = 0 <;> by_cases h2 : o.pex * o.pey = o.size <;> simp [h0, h1, h2] <;> omega

theorem app_eq {o : Opts} (g : Grid o) : app o = some ⟨o.size, fun r => if 0 ≤ r ∧ r < o.size then (blocks o r).flatten else []⟩ := by
  have := g.kba
  unfold app
  rw [if_neg (by omega), if_neg (by rw [g.div]; simp), if_neg (by rw [g.size]; simp), if_neg (by omega)]

/-- A rank. -/
def Has (o : Opts) (r : Int) : Prop := 0 ≤ r ∧ r < o.size

theorem coord {o : Opts} (g : Grid o) {r : Int} (h : Has o r) :
    0 ≤ posX o r ∧ posX o r < o.pex ∧ 0 ≤ posY o r ∧ posY o r < o.pey ∧ r = posY o r * o.pex + posX o r := by
  have hx := g.x
  unfold posX posY
  rw [Int.tmod_eq_emod_of_nonneg h.1, Int.tdiv_eq_ediv_of_nonneg h.1]
  refine ⟨Int.emod_nonneg _ (by omega), Int.emod_lt_of_pos _ hx, Int.ediv_nonneg h.1 (by omega), ?_, ?_⟩
  · rw [Int.ediv_lt_iff_lt_mul hx, Int.mul_comm, g.size]; exact h.2
  · have := Int.mul_ediv_add_emod r o.pex
    rw [Int.mul_comm (r / o.pex)]; omega

theorem coord_inv {o : Opts} (g : Grid o) {a b : Int} (a0 : 0 ≤ a) (a1 : a < o.pex) (b0 : 0 ≤ b) (b1 : b < o.pey) :
    Has o (b * o.pex + a) ∧ posX o (b * o.pex + a) = a ∧ posY o (b * o.pex + a) = b := by
  have hx := g.x
  have h1 : 0 ≤ b * o.pex := Int.mul_nonneg b0 (by omega)
  have h2 : (b + 1) * o.pex ≤ o.pey * o.pex := Int.mul_le_mul_of_nonneg_right (by omega) (by omega)
  rw [Int.add_mul, Int.one_mul, Int.mul_comm o.pey, g.size] at h2
  have hh : Has o (b * o.pex + a) := ⟨by omega, by omega⟩
  refine ⟨hh, ?_, ?_⟩
  · unfold posX
    rw [Int.tmod_eq_emod_of_nonneg hh.1, Int.add_comm, Int.add_mul_emod_self_right, Int.emod_eq_of_lt a0 a1]
  · unfold posY
    rw [Int.tdiv_eq_ediv_of_nonneg hh.1, Int.add_comm, Int.add_mul_ediv_right _ _ (by omega), Int.ediv_eq_zero_of_lt a0 a1, Int.zero_add]

/-- A neighbour: where it is and that the way back leads here. -/
theorem x_up {o : Opts} (g : Grid o) {r : Int} (h : Has o r) (hn : xUp o r > -1) :
    Has o (xUp o r) ∧ xDown o (xUp o r) = r ∧ posX o (xUp o r) = posX o r + 1 ∧ posY o (xUp o r) = posY o r := by
  obtain ⟨x0, x1, y0, y1, e⟩ := coord g h
  unfold xUp at hn ⊢
  split at hn
  · next hne =>
    rw [if_pos hne]
    obtain ⟨h1, h2, h3⟩ := coord_inv g (a := posX o r + 1) (b := posY o r) (by omega) (by omega) y0 y1
    have e' : posY o r * o.pex + (posX o r + 1) = r + 1 := by omega
    rw [e'] at h1 h2 h3
    refine ⟨h1, ?_, h2, h3⟩
    unfold xDown
    rw [if_pos (by omega)]; omega
  · omega

theorem x_down {o : Opts} (g : Grid o) {r : Int} (h : Has o r) (hn : xDown o r > -1) :
    Has o (xDown o r) ∧ xUp o (xDown o r) = r ∧ posX o (xDown o r) + 1 = posX o r ∧ posY o (xDown o r) = posY o r := by
  obtain ⟨x0, x1, y0, y1, e⟩ := coord g h
  unfold xDown at hn ⊢
  split at hn
  · next hne =>
    rw [if_pos hne]
    obtain ⟨h1, h2, h3⟩ := coord_inv g (a := posX o r - 1) (b := posY o r) (by omega) (by omega) y0 y1
    have e' : posY o r * o.pex + (posX o r - 1) = r - 1 := by omega
    rw [e'] at h1 h2 h3
    refine ⟨h1, ?_, by omega, h3⟩
    unfold xUp
    rw [if_pos (by omega)]; omega
  · omega

theorem y_up {o : Opts} (g : Grid o) {r : Int} (h : Has o r) (hn : yUp o r > -1) :
    Has o (yUp o r) ∧ yDown o (yUp o r) = r ∧ posX o (yUp o r) = posX o r ∧ posY o (yUp o r) = posY o r + 1 := by
  obtain ⟨x0, x1, y0, y1, e⟩ := coord g h
  unfold yUp at hn ⊢
  split at hn
  · next hne =>
    rw [if_pos hne]
    obtain ⟨h1, h2, h3⟩ := coord_inv g (a := posX o r) (b := posY o r + 1) x0 x1 (by omega) (by omega)
    have e' : (posY o r + 1) * o.pex + posX o r = r + o.pex := by rw [Int.add_mul, Int.one_mul]; omega
    rw [e'] at h1 h2 h3
    refine ⟨h1, ?_, h2, h3⟩
    unfold yDown
    rw [if_pos (by omega)]; omega
  · omega

theorem y_down {o : Opts} (g : Grid o) {r : Int} (h : Has o r) (hn : yDown o r > -1) :
    Has o (yDown o r) ∧ yUp o (yDown o r) = r ∧ posX o (yDown o r) = posX o r ∧ posY o (yDown o r) + 1 = posY o r := by
  obtain ⟨x0, x1, y0, y1, e⟩ := coord g h
  unfold yDown at hn ⊢
  split at hn
  · next hne =>
    rw [if_pos hne]
    obtain ⟨h1, h2, h3⟩ := coord_inv g (a := posX o r) (b := posY o r - 1) x0 x1 (by omega) (by omega)
    have e' : (posY o r - 1) * o.pex + posX o r = r - o.pex := by rw [Int.sub_mul, Int.one_mul]; omega
    rw [e'] at h1 h2 h3
    refine ⟨h1, ?_, h2, by omega⟩
    unfold yUp
    rw [if_pos (by omega)]; omega
  · omega

/-- A sweep: where messages come from and go to, and the distance from the corner at which it begins. -/
structure Dirs (o : Opts) (iX iY oX oY : Int → Int) (h : Int → Nat) : Prop where
  ox : ∀ r, Has o r → oX r > -1 → Has o (oX r) ∧ iX (oX r) = r
  oy : ∀ r, Has o r → oY r > -1 → Has o (oY r) ∧ iY (oY r) = r
  ix : ∀ r, Has o r → iX r > -1 → Has o (iX r) ∧ oX (iX r) = r ∧ h (iX r) + 1 = h r
  iy : ∀ r, Has o r → iY r > -1 → Has o (iY r) ∧ oY (iY r) = r ∧ h (iY r) + 1 = h r
  nei : ∀ r, Has o r → iX r > -1 → iX r ≠ iY r
  neo : ∀ r, Has o r → oX r > -1 → oX r ≠ oY r

/-- The distance from the left or from the right, from below or from above. -/
def height (o : Opts) (ux uy : Bool) (r : Int) : Nat :=
  (if ux then posX o r else o.pex - 1 - posX o r).toNat + (if uy then posY o r else o.pey - 1 - posY o r).toNat

theorem dirs_all {o : Opts} (g : Grid o) :
    Dirs o (xDown o) (yDown o) (xUp o) (yUp o) (height o true true) ∧ Dirs o (xUp o) (yDown o) (xDown o) (yUp o) (height o false true) ∧
    Dirs o (xUp o) (yUp o) (xDown o) (yDown o) (height o false false) ∧ Dirs o (xDown o) (yUp o) (xUp o) (yDown o) (height o true false) := by
  have ne : ∀ r, Has o r → (∀ a b, (a = xUp o r ∨ a = xDown o r) → (b = yUp o r ∨ b = yDown o r) → a > -1 → a ≠ b) := by
    intro r h a b ha hb hp e
    have pa : posX o a ≠ posX o r := by
      rcases ha with rfl | rfl
      · have := (x_up g h hp).2.2.1; omega
      · have := (x_down g h hp).2.2.1; omega
    have pb : posX o b = posX o r := by
      rcases hb with rfl | rfl
      · exact (y_up g h (by omega)).2.2.1
      · exact (y_down g h (by omega)).2.2.1
    rw [e] at pa; exact pa pb
  refine ⟨⟨?_, ?_, ?_, ?_, ?_, ?_⟩, ⟨?_, ?_, ?_, ?_, ?_, ?_⟩, ⟨?_, ?_, ?_, ?_, ?_, ?_⟩, ⟨?_, ?_, ?_, ?_, ?_, ?_⟩⟩ <;> intro r h hp
  all_goals first
    | exact ⟨(x_up g h hp).1, (x_up g h hp).2.1⟩
    | exact ⟨(x_down g h hp).1, (x_down g h hp).2.1⟩
    | exact ⟨(y_up g h hp).1, (y_up g h hp).2.1⟩
    | exact ⟨(y_down g h hp).1, (y_down g h hp).2.1⟩
    | exact ne r h _ _ (Or.inl rfl) (Or.inl rfl) hp
    | exact ne r h _ _ (Or.inl rfl) (Or.inr rfl) hp
    | exact ne r h _ _ (Or.inr rfl) (Or.inl rfl) hp
    | exact ne r h _ _ (Or.inr rfl) (Or.inr rfl) hp
    | (obtain ⟨h1, h2, h3, h4⟩ := x_up g h hp
       obtain ⟨a0, a1, b0, b1, _⟩ := coord g h
       obtain ⟨c0, c1, d0, d1, _⟩ := coord g h1
       refine ⟨h1, h2, ?_⟩
       unfold height; simp; omega)
    | (obtain ⟨h1, h2, h3, h4⟩ := x_down g h hp
       obtain ⟨a0, a1, b0, b1, _⟩ := coord g h
       obtain ⟨c0, c1, d0, d1, _⟩ := coord g h1
       refine ⟨h1, h2, ?_⟩
       unfold height; simp; omega)
    | (obtain ⟨h1, h2, h3, h4⟩ := y_up g h hp
       obtain ⟨a0, a1, b0, b1, _⟩ := coord g h
       obtain ⟨c0, c1, d0, d1, _⟩ := coord g h1
       refine ⟨h1, h2, ?_⟩
       unfold height; simp; omega)
    | (obtain ⟨h1, h2, h3, h4⟩ := y_down g h hp
       obtain ⟨a0, a1, b0, b1, _⟩ := coord g h
       obtain ⟨c0, c1, d0, d1, _⟩ := coord g h1
       refine ⟨h1, h2, ?_⟩
       unfold height; simp; omega)

/-- Each step of a sweep is one for directions. -/
theorem step_dirs {o : Opts} (g : Grid o) (p : Fin 4) : ∃ tag iX iY oX oY h, Dirs o iX iY oX oY h ∧ ∀ r, sweepStep o r p = stepOf o tag (iX r) (iY r) (oX r) (oY r) := by
  obtain ⟨d0, d1, d2, d3⟩ := dirs_all g
  match p with
  | 0 => exact ⟨_, _, _, _, _, _, d0, fun _ => rfl⟩
  | 1 => exact ⟨_, _, _, _, _, _, d1, fun _ => rfl⟩
  | 2 => exact ⟨_, _, _, _, _, _, d2, fun _ => rfl⟩
  | 3 => exact ⟨_, _, _, _, _, _, d3, fun _ => rfl⟩

/-- The sends of a step. -/
theorem sends_step (o : Opts) (tag iX iY oX oY : Int) (hne : oX > -1 → oX ≠ oY) {d : Int} (hd : 0 ≤ d) (t : Int) :
    sends (stepOf o tag iX iY oX oY) d t = if t = tag ∧ (d = oX ∨ d = oY) then [o.nx * o.kba * o.vars] else [] := by
  unfold sends stepOf
  simp only [List.filterMap_append]
  have e1 : (if iX > -1 then [Instr.recv iX tag (o.nx * o.kba * o.vars)] else []).filterMap (isSend d t) = [] := by split <;> rfl
  have e2 : (if iY > -1 then [Instr.recv iY tag (o.ny * o.kba * o.vars)] else []).filterMap (isSend d t) = [] := by split <;> rfl
  have e3 : [Instr.comp].filterMap (isSend d t) = [] := rfl
  have e4 : ∀ q : Int, (if q > -1 then [Instr.send q tag (o.nx * o.kba * o.vars)] else []).filterMap (isSend d t) = if t = tag ∧ d = q then [o.nx * o.kba * o.vars] else [] := by
    intro q
    by_cases hq : q > -1
    · rw [if_pos hq]
      by_cases h : t = tag ∧ d = q
      · rw [if_pos h]; obtain ⟨rfl, rfl⟩ := h; simp [isSend]
      · rw [if_neg h]
        have : ¬ (q = d ∧ tag = t) := fun h' => h ⟨h'.2.symm, h'.1.symm⟩
        simp [isSend, this]
    · rw [if_neg hq, if_neg (by omega)]; rfl
  rw [e1, e2, e3, e4, e4]
  by_cases ht : t = tag
  · by_cases h1 : d = oX
    · have : d ≠ oY := by rw [h1]; exact hne (by omega)
      simp [ht, h1, this]
      intro h; exact absurd (h1.trans h) this
    · simp [ht, h1]
  · simp [ht]

/-- The receives of a step. -/
theorem recvs_step (o : Opts) (tag iX iY oX oY : Int) (hne : iX > -1 → iX ≠ iY) {s : Int} (hs : 0 ≤ s) (t : Int) :
    recvs (stepOf o tag iX iY oX oY) s t = if t = tag ∧ s = iX then [o.nx * o.kba * o.vars] else if t = tag ∧ s = iY then [o.ny * o.kba * o.vars] else [] := by
  unfold recvs stepOf
  simp only [List.filterMap_append]
  have e1 : (if oX > -1 then [Instr.send oX tag (o.nx * o.kba * o.vars)] else []).filterMap (isRecv s t) = [] := by split <;> rfl
  have e2 : (if oY > -1 then [Instr.send oY tag (o.nx * o.kba * o.vars)] else []).filterMap (isRecv s t) = [] := by split <;> rfl
  have e3 : [Instr.comp].filterMap (isRecv s t) = [] := rfl
  have e4 : ∀ q n : Int, (if q > -1 then [Instr.recv q tag n] else []).filterMap (isRecv s t) = if t = tag ∧ s = q then [n] else [] := by
    intro q n
    by_cases hq : q > -1
    · rw [if_pos hq]
      by_cases h : t = tag ∧ s = q
      · rw [if_pos h]; obtain ⟨rfl, rfl⟩ := h; simp [isRecv]
      · rw [if_neg h]
        have : ¬ (q = s ∧ tag = t) := fun h' => h ⟨h'.2.symm, h'.1.symm⟩
        simp [isRecv, this]
    · rw [if_neg hq, if_neg (by omega)]; rfl
  rw [e1, e2, e3, e4, e4]
  by_cases ht : t = tag
  · by_cases h1 : s = iX
    · have : s ≠ iY := by rw [h1]; exact hne (by omega)
      rw [if_pos ⟨ht, h1⟩, if_neg (fun h => this h.2), if_pos ⟨ht, h1⟩]; rfl
    · simp [ht, h1]
  · simp [ht]

/-- The sends of a step to a rank are as many as the receives of this rank. -/
theorem step_match {o : Opts} {tag : Int} {iX iY oX oY : Int → Int} {h : Int → Nat} (D : Dirs o iX iY oX oY h) {r s : Int} (hr : Has o r) (hs : Has o s) (t : Int) :
    (recvs (stepOf o tag (iX r) (iY r) (oX r) (oY r)) s t).length = (sends (stepOf o tag (iX s) (iY s) (oX s) (oY s)) r t).length := by
  rw [recvs_step _ _ _ _ _ _ (D.nei r hr) hs.1, sends_step _ _ _ _ _ _ (D.neo s hs) hr.1]
  by_cases ht : t = tag
  · have a : s = iX r ↔ r = oX s := by
      constructor
      · intro e; have := D.ix r hr (by have := hs.1; omega); rw [e, this.2.1]
      · intro e; have := D.ox s hs (by have := hr.1; omega); rw [e, this.2]
    have b : s = iY r ↔ r = oY s := by
      constructor
      · intro e; have := D.iy r hr (by have := hs.1; omega); rw [e, this.2.1]
      · intro e; have := D.oy s hs (by have := hr.1; omega); rw [e, this.2]
    by_cases h1 : s = iX r
    · rw [if_pos ⟨ht, h1⟩, if_pos ⟨ht, Or.inl (a.mp h1)⟩]
    · rw [if_neg (fun h => h1 h.2)]
      by_cases h2 : s = iY r
      · rw [if_pos ⟨ht, h2⟩, if_pos ⟨ht, Or.inr (b.mp h2)⟩]; simp
      · rw [if_neg (fun h => h2 h.2), if_neg (by rintro ⟨_, h | h⟩; exact h1 (a.mpr h); exact h2 (b.mpr h))]
  · simp [ht]

/-- The calls of a step, and what was called before. -/
theorem step_cases (o : Opts) (tag iX iY oX oY : Int) (k : Nat) (hk : k < (stepOf o tag iX iY oX oY).length) :
    (iX > -1 → .recv iX tag (o.nx * o.kba * o.vars) ∈ (stepOf o tag iX iY oX oY).take (k + 1)) ∧
    ((stepOf o tag iX iY oX oY)[k]? = some (.recv iX tag (o.nx * o.kba * o.vars)) ∧ iX > -1 ∨
     ((iY > -1 → .recv iY tag (o.ny * o.kba * o.vars) ∈ (stepOf o tag iX iY oX oY).take (k + 1)) ∧
      ((stepOf o tag iX iY oX oY)[k]? = some (.recv iY tag (o.ny * o.kba * o.vars)) ∧ iY > -1 ∨
       (stepOf o tag iX iY oX oY)[k]? = some .comp ∨
       (stepOf o tag iX iY oX oY)[k]? = some (.send oX tag (o.nx * o.kba * o.vars)) ∧ oX > -1 ∨
       (stepOf o tag iX iY oX oY)[k]? = some (.send oY tag (o.nx * o.kba * o.vars)) ∧ oY > -1 ∧ (stepOf o tag iX iY oX oY).take (k + 1) = stepOf o tag iX iY oX oY))) := by
  by_cases h1 : iX > -1 <;> by_cases h2 : iY > -1 <;> by_cases h3 : oX > -1 <;> by_cases h4 : oY > -1 <;>
    simp only [stepOf, h1, h2, h3, h4, if_true, if_false, List.nil_append, List.append_nil, List.cons_append] at hk ⊢ <;>
    (match k, hk with
     | 0, _ => simp
     | 1, _ => simp_all
     | 2, _ => simp_all
     | 3, _ => simp_all
     | 4, _ => simp_all
     | k + 5, hk => exfalso; simp only [List.length_cons, List.length_nil] at hk; omega)

theorem blocks_length (o : Opts) (r : Int) : (blocks o r).length = (steps o).length + 1 := by simp [blocks]

/-- The blocks of all ranks are steps of the same sweeps, or all the barrier. -/
theorem blocks_get {o : Opts} {r : Int} {i : Nat} {b : List Instr} (h : (blocks o r)[i]? = some b) :
    (b = [barrier o] ∧ ∀ s, (blocks o s)[i]? = some [barrier o]) ∨ ∃ p, b = sweepStep o r p ∧ ∀ s, (blocks o s)[i]? = some (sweepStep o s p) := by
  unfold blocks at h ⊢
  by_cases hi : i < (steps o).length
  · right
    have e : ∀ s, ((steps o).map (sweepStep o s) ++ [[barrier o]])[i]? = some (sweepStep o s (steps o)[i]) := by
      intro s
      rw [List.getElem?_append_left (by simpa using hi), List.getElem?_map, List.getElem?_eq_getElem hi]; rfl
    rw [e] at h
    exact ⟨_, (Option.some.inj h).symm, e⟩
  · left
    have h3 : i = (steps o).length := by
      have := (List.getElem?_eq_some_iff.mp h).1
      simp at this; omega
    have e : ∀ s, ((steps o).map (sweepStep o s) ++ [[barrier o]])[i]? = some [barrier o] := by
      intro s
      rw [List.getElem?_append_right (by simp; omega)]
      simp [h3]
    rw [e] at h
    exact ⟨(Option.some.inj h).symm, e⟩

/-- Per block, the sends of a rank to another are as many as the receives of the other from it. -/
theorem block_match {o : Opts} (g : Grid o) {r s : Int} (hr : Has o r) (hs : Has o s) (t : Int) :
    ∀ (i : Nat) a b, (blocks o r)[i]? = some a → (blocks o s)[i]? = some b → (a.filterMap (isRecv s t)).length = (b.filterMap (isSend r t)).length := by
  intro i a b ha hb
  rcases blocks_get ha with ⟨rfl, h⟩ | ⟨p, rfl, h⟩
  · rw [h s] at hb; cases hb; rfl
  · rw [h s] at hb; cases hb
    obtain ⟨tag, iX, iY, oX, oY, ht, D, e⟩ := step_dirs g p
    rw [e r, e s]
    exact step_match D hr hs t

theorem coll_match {o : Opts} (r s : Int) : ∀ (i : Nat) a b, (blocks o r)[i]? = some a → (blocks o s)[i]? = some b →
    a.filterMap (isColl (world o)) = b.filterMap (isColl (world o)) := by
  intro i a b ha hb
  have e : ∀ tag iX iY oX oY, (stepOf o tag iX iY oX oY).filterMap (isColl (world o)) = [] := by
    intro tag iX iY oX oY
    unfold stepOf
    simp only [List.filterMap_append]
    split <;> split <;> split <;> split <;> rfl
  have e' : ∀ q p, (sweepStep o q p).filterMap (isColl (world o)) = [] := by
    intro q p
    unfold sweepStep
    split <;> exact e _ _ _ _ _
  rcases blocks_get ha with ⟨rfl, h⟩ | ⟨p, rfl, h⟩
  · rw [h s] at hb; cases hb; rfl
  · rw [h s] at hb; cases hb; rw [e', e']

theorem one_recv {l : List Instr} {s t n : Int} (h : .recv s t n ∈ l) : 1 ≤ (l.filterMap (isRecv s t)).length := by
  have : n ∈ l.filterMap (isRecv s t) := List.mem_filterMap.mpr ⟨_, h, by simp [isRecv]⟩
  exact List.length_pos_of_mem this

/-- `sweep3d` ends, whatever sends are eager and in whatever order the ranks run. -/
theorem C128_sweep_ends {o : Opts} (g : Grid o) {W : World} (hW : app o = some W) (eager : Int → Prop) : Completes W eager := by
  rw [app_eq g] at hW
  cases hW
  apply completes_of
  rintro pc ⟨u, hu, hul⟩
  have prg : ∀ q, Has o q → (if 0 ≤ q ∧ q < o.size then (blocks o q).flatten else []) = (blocks o q).flatten := by
    intro q h; exact if_pos h
  replace hu : Has o u := hu
  replace hul : pc u < (if 0 ≤ u ∧ u < o.size then (blocks o u).flatten else []).length := hul
  rw [prg u hu] at hul
  -- where the ranks are
  have hat : ∀ q, ∃ p : Nat × Nat, At (blocks o q) (pc q) p.1 p.2 := by
    intro q; obtain ⟨i, k, h⟩ := exists_at (blocks o q) (pc q); exact ⟨(i, k), h⟩
  let st : Int → Nat := fun q => (Classical.choose (hat q)).1
  let of : Int → Nat := fun q => (Classical.choose (hat q)).2
  have at_ : ∀ q, At (blocks o q) (pc q) (st q) (of q) := fun q => Classical.choose_spec (hat q)
  obtain ⟨r, r0, r1, _, hmin⟩ := argmin (N := o.size) (fun _ => True) st ⟨u, hu.1, hu.2, trivial⟩
  have hr : Has o r := ⟨r0, r1⟩
  replace hmin : ∀ q, Has o q → st r ≤ st q := fun q h => hmin q h.1 h.2 trivial
  have hm : st r < (blocks o r).length := by
    have h1 := hmin u hu
    have h2 : st u < (blocks o u).length := by
      have := (at_ u).le
      cases Nat.lt_or_ge (st u) (blocks o u).length with
      | inl h => exact h
      | inr h => have := (at_ u).done (by omega); omega
    rw [blocks_length] at h2 ⊢; omega
  have len : ∀ p q, (blocks o p).length = (blocks o q).length := fun p q => by rw [blocks_length, blocks_length]
  -- receives and sends of ranks that are ahead
  have aheadR : ∀ q s t, Has o q → Has o s → st q < st s → (((blocks o q).flatten.take (pc q + 1)).filterMap (isRecv s t)).length ≤ (((blocks o s).flatten.take (pc s + 1)).filterMap (isSend q t)).length :=
    fun q s t hq hs h => ahead (len q s) (block_match g hq hs t) (at_ q) (at_ s) h
  have aheadS : ∀ q d t, Has o q → Has o d → st q < st d → (((blocks o q).flatten.take (pc q + 1)).filterMap (isSend d t)).length ≤ (((blocks o d).flatten.take (pc d + 1)).filterMap (isRecv q t)).length :=
    fun q d t hq hd h => ahead (len q d) (fun i a b ha hb => (block_match g hd hq t i b a hb ha).symm) (at_ q) (at_ d) h
  cases hb : (blocks o r)[st r]? with
  | none => rw [List.getElem?_eq_none_iff] at hb; omega
  | some b =>
    rcases blocks_get hb with ⟨rfl, hall⟩ | ⟨p, rfl, hall⟩
    · -- the barrier
      refine ⟨r, hr, ?_⟩
      have hc := (at_ r).call
      have hlt := (at_ r).lt hm
      rw [hb] at hc hlt
      simp only [Option.getD_some, List.length_singleton] at hlt
      have ho : of r = 0 := by omega
      rw [ho] at hc
      unfold Ready
      simp only [prg r hr]
      rw [hc]
      show ∀ q, q ∈ world o → _
      intro q hq
      have hq' : Has o q := by
        unfold world at hq
        obtain ⟨a, ha, rfl⟩ := List.mem_map.mp hq
        have := List.mem_range.mp ha
        constructor
        · exact Int.natCast_nonneg a
        · show (a : Int) < o.size; omega
      unfold made colls
      simp only [prg r hr, prg q hq']
      have cm := fun i a b ha hb => congrArg List.length (coll_match (o := o) r q i a b ha hb)
      cases Nat.lt_or_ge (st r) (st q) with
      | inl h => exact ahead (len r q) cm (at_ r) (at_ q) h
      | inr h =>
        have e : st q = st r := by have := hmin q hq'; omega
        have aq := at_ q
        rw [e] at aq
        apply level (len r q) cm (at_ r) aq
        rw [hb, hall q]
        simp
    · -- a step
      obtain ⟨tag, iX, iY, oX, oY, h, D, es⟩ := step_dirs g p
      have blk : ∀ q, (blocks o q)[st r]?.getD [] = stepOf o tag (iX q) (iY q) (oX q) (oY q) := by
        intro q; rw [hall q, ← es q]; rfl
      -- the lowest rank in the earliest step
      obtain ⟨a, a0, a1, ha, hlow⟩ := argmin (N := o.size) (fun q => st q = st r) h ⟨r, r0, r1, rfl⟩
      have hA : Has o a := ⟨a0, a1⟩
      have later : ∀ q, Has o q → h q < h a → st r < st q := by
        intro q hq hlt
        have h1 := hmin q hq
        have h2 : st q ≠ st r := fun e => by have := hlow q hq.1 hq.2 e; omega
        omega
      have here : ∀ q, Has o q → st q = st r → of q < (stepOf o tag (iX q) (iY q) (oX q) (oY q)).length ∧
          (blocks o q).flatten[pc q]? = (stepOf o tag (iX q) (iY q) (oX q) (oY q))[of q]? := by
        intro q _ hq
        have h1 := (at_ q).lt (by rw [hq, len q r]; exact hm)
        have h2 := (at_ q).call
        rw [hq, blk q] at h1 h2
        exact ⟨h1, h2⟩
      have levelS : ∀ q d t, Has o q → Has o d → st q = st r → st d = st r →
          (((stepOf o tag (iX q) (iY q) (oX q) (oY q)).take (of q + 1)).filterMap (isSend d t)).length ≤ (((stepOf o tag (iX d) (iY d) (oX d) (oY d)).take (of d + 1)).filterMap (isRecv q t)).length →
          (((blocks o q).flatten.take (pc q + 1)).filterMap (isSend d t)).length ≤ (((blocks o d).flatten.take (pc d + 1)).filterMap (isRecv q t)).length := by
        intro q d t hq hd e1 e2 hh
        have aq := at_ q
        have ad := at_ d
        rw [e1] at aq
        rw [e2] at ad
        apply level (len q d) (fun i a b ha hb => (block_match g hd hq t i b a hb ha).symm) aq ad
        rw [blk q, blk d]; exact hh
      have levelR : ∀ q s t, Has o q → Has o s → st q = st r → st s = st r →
          (((stepOf o tag (iX q) (iY q) (oX q) (oY q)).take (of q + 1)).filterMap (isRecv s t)).length ≤ (((stepOf o tag (iX s) (iY s) (oX s) (oY s)).take (of s + 1)).filterMap (isSend q t)).length →
          (((blocks o q).flatten.take (pc q + 1)).filterMap (isRecv s t)).length ≤ (((blocks o s).flatten.take (pc s + 1)).filterMap (isSend q t)).length := by
        intro q s t hq hs e1 e2 hh
        have aq := at_ q
        have ad := at_ s
        rw [e1] at aq
        rw [e2] at ad
        apply level (len q s) (block_match g hq hs t) aq ad
        rw [blk q, blk s]; exact hh
      have atMost : ∀ q d k, Has o q → Has o d → (((stepOf o tag (iX q) (iY q) (oX q) (oY q)).take k).filterMap (isSend d tag)).length ≤ 1 := by
        intro q d k hq hd
        apply Nat.le_trans ((List.take_sublist _ _).filterMap _).length_le
        have := sends_step o tag (iX q) (iY q) (oX q) (oY q) (D.neo q hq) hd.1 tag
        unfold sends at this
        rw [this]
        split <;> simp
      have atMostR : ∀ q s k, Has o q → Has o s → (((stepOf o tag (iX q) (iY q) (oX q) (oY q)).take k).filterMap (isRecv s tag)).length ≤ 1 := by
        intro q s k hq hs
        apply Nat.le_trans ((List.take_sublist _ _).filterMap _).length_le
        have := recvs_step o tag (iX q) (iY q) (oX q) (oY q) (D.nei q hq) hs.1 tag
        unfold recvs at this
        rw [this]
        split
        · simp
        · split <;> simp
      -- how a rank becomes ready
      have rdyR : ∀ q s n, Has o q → Has o s → (blocks o q).flatten[pc q]? = some (.recv s tag n) →
          (((blocks o q).flatten.take (pc q + 1)).filterMap (isRecv s tag)).length ≤ (((blocks o s).flatten.take (pc s + 1)).filterMap (isSend q tag)).length →
          ∃ r, World.Has ⟨o.size, fun r => if 0 ≤ r ∧ r < o.size then (blocks o r).flatten else []⟩ r ∧ Ready ⟨o.size, fun r => if 0 ≤ r ∧ r < o.size then (blocks o r).flatten else []⟩ eager pc r := by
        intro q s n hq hs hc hh
        refine ⟨q, hq, ?_⟩
        unfold Ready
        simp only [prg q hq]
        rw [hc]
        show Arrived _ _ _ _ _ _
        unfold Arrived made recvs sends
        simp only [prg q hq, prg s hs]
        exact hh
      have rdyS : ∀ q d n, Has o q → Has o d → (blocks o q).flatten[pc q]? = some (.send d tag n) →
          (((blocks o q).flatten.take (pc q + 1)).filterMap (isSend d tag)).length ≤ (((blocks o d).flatten.take (pc d + 1)).filterMap (isRecv q tag)).length →
          ∃ r, World.Has ⟨o.size, fun r => if 0 ≤ r ∧ r < o.size then (blocks o r).flatten else []⟩ r ∧ Ready ⟨o.size, fun r => if 0 ≤ r ∧ r < o.size then (blocks o r).flatten else []⟩ eager pc r := by
        intro q d n hq hd hc hh
        refine ⟨q, hq, ?_⟩
        unfold Ready
        simp only [prg q hq]
        rw [hc]
        show eager n ∨ Taken _ _ _ _ _ _
        right
        unfold Taken made recvs sends
        simp only [prg q hq, prg d hd]
        exact hh
      have rdyC : ∀ q, Has o q → (blocks o q).flatten[pc q]? = some .comp →
          ∃ r, World.Has ⟨o.size, fun r => if 0 ≤ r ∧ r < o.size then (blocks o r).flatten else []⟩ r ∧ Ready ⟨o.size, fun r => if 0 ≤ r ∧ r < o.size then (blocks o r).flatten else []⟩ eager pc r := by
        intro q hq hc
        refine ⟨q, hq, ?_⟩
        unfold Ready
        simp only [prg q hq]
        rw [hc]
        trivial
      -- a send in x goes on: its receive is the first call of the step
      have sendX : ∀ q n, Has o q → st q = st r → oX q > -1 → (blocks o q).flatten[pc q]? = some (.send (oX q) tag n) →
          ∃ r, World.Has ⟨o.size, fun r => if 0 ≤ r ∧ r < o.size then (blocks o r).flatten else []⟩ r ∧ Ready ⟨o.size, fun r => if 0 ≤ r ∧ r < o.size then (blocks o r).flatten else []⟩ eager pc r := by
        intro q n hq hsq ho hc
        obtain ⟨hd, hback⟩ := D.ox q hq ho
        apply rdyS q (oX q) n hq hd hc
        cases Nat.lt_or_ge (st r) (st (oX q)) with
        | inl hlt => exact aheadS q (oX q) tag hq hd (by omega)
        | inr hge =>
          have hsd : st (oX q) = st r := by have := hmin _ hd; omega
          apply levelS q (oX q) tag hq hd hsq hsd
          have h1 := (step_cases o tag (iX (oX q)) (iY (oX q)) (oX (oX q)) (oY (oX q)) (of (oX q)) (here _ hd hsd).1).1 (by rw [hback]; have := hq.1; omega)
          rw [hback] at h1
          apply Nat.le_trans (atMost q (oX q) _ hq hd)
          rw [hback]
          exact one_recv h1
      -- receives of a rank that is not above the lowest go on
      have recvLow : ∀ q s n, Has o q → st q = st r → h q = h a → (s = iX q ∨ s = iY q) → s > -1 → (blocks o q).flatten[pc q]? = some (.recv s tag n) →
          ∃ r, World.Has ⟨o.size, fun r => if 0 ≤ r ∧ r < o.size then (blocks o r).flatten else []⟩ r ∧ Ready ⟨o.size, fun r => if 0 ≤ r ∧ r < o.size then (blocks o r).flatten else []⟩ eager pc r := by
        intro q s n hq hsq hh hs hp hc
        have hs' : Has o s ∧ h s + 1 = h q := by
          rcases hs with rfl | rfl
          · exact ⟨(D.ix q hq hp).1, (D.ix q hq hp).2.2⟩
          · exact ⟨(D.iy q hq hp).1, (D.iy q hq hp).2.2⟩
        exact rdyR q s n hq hs'.1 hc (aheadR q s tag hq hs'.1 (by have := later s hs'.1 (by omega); omega))
      obtain ⟨ho, hcall⟩ := here a hA ha
      have hcs := (step_cases o tag (iX a) (iY a) (oX a) (oY a) (of a) ho).2
      rw [← hcall] at hcs
      rcases hcs with ⟨hc, hp⟩ | ⟨_, ⟨hc, hp⟩ | hc | ⟨hc, hp⟩ | ⟨hc, hp, _⟩⟩
      · exact recvLow a _ _ hA ha rfl (Or.inl rfl) hp hc
      · exact recvLow a _ _ hA ha rfl (Or.inr rfl) hp hc
      · exact rdyC a hA hc
      · exact sendX a _ hA ha hp hc
      · -- a send in y
        obtain ⟨hd, hback⟩ := D.oy a hA hp
        cases Nat.lt_or_ge (st r) (st (oY a)) with
        | inl hlt => exact rdyS a (oY a) _ hA hd hc (aheadS a (oY a) tag hA hd (by omega))
        | inr hge =>
          have hsd : st (oY a) = st r := by have := hmin _ hd; omega
          obtain ⟨ho', hcall'⟩ := here (oY a) hd hsd
          have hcs' := (step_cases o tag (iX (oY a)) (iY (oY a)) (oX (oY a)) (oY (oY a)) (of (oY a)) ho').2
          rw [← hcall'] at hcs'
          rcases hcs' with ⟨hc', hp'⟩ | ⟨hy, _⟩
          · -- the receiver waits in x for a rank as low as `a`
            obtain ⟨hw, hbw, hhw⟩ := D.ix (oY a) hd hp'
            have hh : h (iX (oY a)) = h a := by
              have := (D.iy (oY a) hd (by rw [hback]; have := hA.1; omega)).2.2
              rw [hback] at this; omega
            cases Nat.lt_or_ge (st r) (st (iX (oY a))) with
            | inl hlt => exact rdyR (oY a) _ _ hd hw hc' (aheadR _ _ tag hd hw (by omega))
            | inr hge' =>
              have hsw : st (iX (oY a)) = st r := by have := hmin _ hw; omega
              obtain ⟨ho2, hcall2⟩ := here _ hw hsw
              have hcs2 := (step_cases o tag (iX (iX (oY a))) (iY (iX (oY a))) (oX (iX (oY a))) (oY (iX (oY a))) (of (iX (oY a))) ho2).2
              rw [← hcall2] at hcs2
              rcases hcs2 with ⟨hc2, hp2⟩ | ⟨_, ⟨hc2, hp2⟩ | hc2 | ⟨hc2, hp2⟩ | ⟨hc2, hp2, hall2⟩⟩
              · exact recvLow _ _ _ hw hsw hh (Or.inl rfl) hp2 hc2
              · exact recvLow _ _ _ hw hsw hh (Or.inr rfl) hp2 hc2
              · exact rdyC _ hw hc2
              · exact sendX _ _ hw hsw hp2 hc2
              · -- that rank has sent in x already
                apply rdyR (oY a) _ _ hd hw hc'
                apply levelR _ _ tag hd hw hsd hsw
                apply Nat.le_trans (atMostR _ _ _ hd hw)
                rw [hall2]
                have := sends_step o tag (iX (iX (oY a))) (iY (iX (oY a))) (oX (iX (oY a))) (oY (iX (oY a))) (D.neo _ hw) hd.1 tag
                unfold sends at this
                rw [this, if_pos ⟨rfl, Or.inl hbw.symm⟩]
                simp
          · apply rdyS a (oY a) _ hA hd hc
            apply levelS a (oY a) tag hA hd ha hsd
            have h1 := hy (by rw [hback]; have := hA.1; omega)
            rw [hback] at h1
            apply Nat.le_trans (atMost a (oY a) _ hA hd)
            rw [hback]
            exact one_recv h1

/-- All messages stay in the world. -/
theorem C128_sweep_inside {o : Opts} (g : Grid o) {W : World} (hW : app o = some W) : Inside W := by
  rw [app_eq g] at hW
  cases hW
  intro r hr i hi
  replace hi : i ∈ (if 0 ≤ r ∧ r < o.size then (blocks o r).flatten else []) := hi
  replace hr : Has o r := hr
  rw [if_pos ⟨hr.1, hr.2⟩] at hi
  obtain ⟨b, hb, hib⟩ := List.mem_flatten.mp hi
  obtain ⟨j, hj⟩ := List.getElem?_of_mem hb
  rcases blocks_get hj with ⟨rfl, _⟩ | ⟨p, rfl, _⟩
  · simp only [List.mem_singleton] at hib
    subst hib
    constructor <;> (intro _ _ _ h; rcases h with h | h <;> cases h)
  · obtain ⟨tag, iX, iY, oX, oY, ht, D, e⟩ := step_dirs g p
    rw [e r] at hib
    obtain ⟨k, hk⟩ := List.getElem?_of_mem hib
    have hlt := (List.getElem?_eq_some_iff.mp hk).1
    have hc := (step_cases o tag (iX r) (iY r) (oX r) (oY r) k hlt).2
    rw [hk] at hc
    rcases hc with ⟨hc, hp⟩ | ⟨_, ⟨hc, hp⟩ | hc | ⟨hc, hp⟩ | ⟨hc, hp, _⟩⟩ <;> cases hc
    · exact ⟨(by intro _ _ _ h; rcases h with h | h <;> cases h), (by intro _ _ _ h; rcases h with h | h <;> cases h; exact (D.ix r hr hp).1)⟩
    · exact ⟨(by intro _ _ _ h; rcases h with h | h <;> cases h), (by intro _ _ _ h; rcases h with h | h <;> cases h; exact (D.iy r hr hp).1)⟩
    · exact ⟨(by intro _ _ _ h; rcases h with h | h <;> cases h), (by intro _ _ _ h; rcases h with h | h <;> cases h)⟩
    · exact ⟨(by intro _ _ _ h; rcases h with h | h <;> cases h; exact (D.ox r hr hp).1), (by intro _ _ _ h; rcases h with h | h <;> cases h)⟩
    · exact ⟨(by intro _ _ _ h; rcases h with h | h <;> cases h; exact (D.oy r hr hp).1), (by intro _ _ _ h; rcases h with h | h <;> cases h)⟩

/-- The ranks call the same collectives. -/
theorem C128_sweep_agree {o : Opts} (g : Grid o) {W : World} (hW : app o = some W) : Agree W := by
  rw [app_eq g] at hW
  cases hW
  intro r hr ms k n hi
  replace hi : Instr.coll ms k n ∈ (if 0 ≤ r ∧ r < o.size then (blocks o r).flatten else []) := hi
  replace hr : Has o r := hr
  rw [if_pos ⟨hr.1, hr.2⟩] at hi
  have hms : ms = world o := by
    obtain ⟨b, hb, hib⟩ := List.mem_flatten.mp hi
    obtain ⟨j, hj⟩ := List.getElem?_of_mem hb
    rcases blocks_get hj with ⟨rfl, _⟩ | ⟨p, rfl, _⟩
    · simp only [List.mem_singleton, barrier] at hib
      cases hib; rfl
    · obtain ⟨tag, iX, iY, oX, oY, ht, D, e⟩ := step_dirs g p
      rw [e r] at hib
      obtain ⟨k, hk⟩ := List.getElem?_of_mem hib
      have hlt := (List.getElem?_eq_some_iff.mp hk).1
      have hc := (step_cases o tag (iX r) (iY r) (oX r) (oY r) k hlt).2
      rw [hk] at hc
      rcases hc with ⟨hc, hp⟩ | ⟨_, ⟨hc, hp⟩ | hc | ⟨hc, hp⟩ | ⟨hc, hp, _⟩⟩ <;> cases hc
  subst hms
  have r1 := hr.2
  have r0 := hr.1
  constructor
  · unfold world
    rw [List.mem_map]
    exact ⟨r.toNat, List.mem_range.mpr (by omega), show ((r.toNat : Nat) : Int) = r by omega⟩
  · intro q hq
    have hq' : Has o q := by
      unfold world at hq
      obtain ⟨a, ha, rfl⟩ := List.mem_map.mp hq
      have := List.mem_range.mp ha
      constructor
      · exact Int.natCast_nonneg a
      · show (a : Int) < o.size; omega
    refine ⟨hq', ?_⟩
    show colls (if 0 ≤ q ∧ q < o.size then _ else _) _ = colls (if 0 ≤ r ∧ r < o.size then _ else _) _
    rw [if_pos ⟨hq'.1, hq'.2⟩, if_pos ⟨r0, r1⟩]
    exact flat_eq _ _ (by rw [blocks_length, blocks_length]) (coll_match q r)

/-- Each message has a receive and each receive a message; the messages fit if the blocks are not
longer in x than in y. -/
theorem C128_sweep_fits_partial {o : Opts} (g : Grid o) (hn : o.nx ≤ o.ny) (hv : 0 ≤ o.vars) {W : World} (hW : app o = some W) : Fits W := by
  rw [app_eq g] at hW
  cases hW
  intro s d t hs hd
  replace hs : Has o s := hs
  replace hd : Has o d := hd
  show (sends (if 0 ≤ s ∧ s < o.size then _ else _) d t).length = (recvs (if 0 ≤ d ∧ d < o.size then _ else _) s t).length ∧
    ∀ (i : Nat) (n m : Int), (sends (if 0 ≤ s ∧ s < o.size then _ else _) d t)[i]? = some n → (recvs (if 0 ≤ d ∧ d < o.size then _ else _) s t)[i]? = some m → n ≤ m
  rw [if_pos ⟨hs.1, hs.2⟩, if_pos ⟨hd.1, hd.2⟩]
  constructor
  · have := flat_len (blocks o d) (blocks o s) (by rw [blocks_length, blocks_length]) (block_match g hd hs t) (blocks o d).length
    rw [List.take_of_length_le (Nat.le_refl _), List.take_of_length_le (by rw [blocks_length, blocks_length]; omega)] at this
    exact this.symm
  · intro i n m h1 h2
    have e1 : n = o.nx * o.kba * o.vars := by
      have := List.mem_of_getElem? h1
      unfold sends at this
      obtain ⟨c, hc, hs'⟩ := List.mem_filterMap.mp this
      obtain ⟨b, hb, hib⟩ := List.mem_flatten.mp hc
      obtain ⟨j, hj⟩ := List.getElem?_of_mem hb
      rcases blocks_get hj with ⟨rfl, _⟩ | ⟨p, rfl, _⟩
      · simp only [List.mem_singleton] at hib
        subst hib; simp [isSend, barrier] at hs'
      · obtain ⟨tag, iX, iY, oX, oY, ht, D, e⟩ := step_dirs g p
        rw [e s] at hib
        have : n ∈ sends (stepOf o tag (iX s) (iY s) (oX s) (oY s)) d t := List.mem_filterMap.mpr ⟨c, hib, hs'⟩
        rw [sends_step _ _ _ _ _ _ (D.neo s hs) hd.1] at this
        split at this
        · simpa using this
        · simp at this
    have e2 : m = o.nx * o.kba * o.vars ∨ m = o.ny * o.kba * o.vars := by
      have := List.mem_of_getElem? h2
      unfold recvs at this
      obtain ⟨c, hc, hs'⟩ := List.mem_filterMap.mp this
      obtain ⟨b, hb, hib⟩ := List.mem_flatten.mp hc
      obtain ⟨j, hj⟩ := List.getElem?_of_mem hb
      rcases blocks_get hj with ⟨rfl, _⟩ | ⟨p, rfl, _⟩
      · simp only [List.mem_singleton] at hib
        subst hib; simp [isRecv, barrier] at hs'
      · obtain ⟨tag, iX, iY, oX, oY, ht, D, e⟩ := step_dirs g p
        rw [e d] at hib
        have : m ∈ recvs (stepOf o tag (iX d) (iY d) (oX d) (oY d)) s t := List.mem_filterMap.mpr ⟨c, hib, hs'⟩
        rw [recvs_step _ _ _ _ _ _ (D.nei d hd) hs.1] at this
        split at this
        · left; simpa using this
        · split at this
          · right; simpa using this
          · simp at this
    have hk := g.kba
    have hle : o.nx * o.kba * o.vars ≤ o.ny * o.kba * o.vars :=
      Int.mul_le_mul_of_nonneg_right (Int.mul_le_mul_of_nonneg_right hn (by omega)) hv
    rcases e2 with e2 | e2 <;> omega

/-- A grid of 3 x 2 processes; the first step of rank 1 and of rank 4. -/
example : Grid ⟨6, 3, 2, 10, 20, 30, 10, 1, 2⟩ ∧
    sweepStep ⟨6, 3, 2, 10, 20, 30, 10, 1, 2⟩ 1 0 = [.recv 0 1000 200, .comp, .send 2 1000 200, .send 4 1000 200] ∧
    sweepStep ⟨6, 3, 2, 10, 20, 30, 10, 1, 2⟩ 4 0 = [.recv 3 1000 200, .recv 1 1000 400, .comp, .send 5 1000 200] :=
  ⟨⟨by decide, by decide, by decide, by decide, by decide⟩, by decide, by decide⟩

theorem steps_head {o : Opts} (h1 : 0 < o.repeats) (h2 : 0 < o.nz) (h3 : 0 < o.kba) : ∃ l, steps o = 0 :: l := by
  have hr : 0 < rounds o := by
    unfold rounds
    exact Nat.div_pos (by omega) (by omega)
  obtain ⟨a, ha⟩ := Nat.exists_eq_succ_of_ne_zero (show rounds o ≠ 0 by omega)
  obtain ⟨b, hb⟩ := Nat.exists_eq_succ_of_ne_zero (show (o.repeats * 2).toNat ≠ 0 by omega)
  unfold steps sweeps
  rw [hb, List.replicate_succ, ha, List.replicate_succ]
  exact ⟨_, rfl⟩

/-- With at least two processes in y and blocks that are longer in x than in y, a message does not fit
in the buffer of its receive. -/
theorem C128_sweep_fits_refuted {o : Opts} (g : Grid o) (hn : o.ny < o.nx) (hv : 0 < o.vars) (hr : 0 < o.repeats) (hz : 0 < o.nz) (hy : 2 ≤ o.pey) {W : World}
    (hW : app o = some W) : ¬ Fits W := by
  rw [app_eq g] at hW
  cases hW
  intro hf
  have hx := g.x
  have h0 : Has o 0 := by
    have h := coord_inv g (a := 0) (b := 0) (by omega) hx (by omega) (by omega)
    simpa using h.1
  obtain ⟨h1, hp1, hp2⟩ := coord_inv g (a := 0) (b := 1) (by omega) hx (by omega) (by omega)
  rw [Int.one_mul, Int.add_zero] at h1 hp1 hp2
  obtain ⟨l, hl⟩ := steps_head hr hz g.kba
  have hf' := (hf 0 o.pex 1000 h0 h1).2 0 (o.nx * o.kba * o.vars) (o.ny * o.kba * o.vars)
  have p0 : posY o 0 = 0 := by unfold posY; simp
  have yu : yUp o 0 = o.pex := by unfold yUp; rw [p0, if_pos (by omega)]; omega
  have yd : yDown o o.pex = 0 := by unfold yDown; rw [hp2, if_pos (by omega)]; omega
  obtain ⟨D, _, _, _⟩ := dirs_all g
  have s1 : sends (sweepStep o 0 0) o.pex 1000 = [o.nx * o.kba * o.vars] := by
    show sends (stepOf o 1000 (xDown o 0) (yDown o 0) (xUp o 0) (yUp o 0)) _ _ = _
    rw [sends_step _ _ _ _ _ _ (D.neo 0 h0) h1.1, if_pos ⟨rfl, Or.inr yu.symm⟩]
  have r1 : recvs (sweepStep o o.pex 0) 0 1000 = [o.ny * o.kba * o.vars] := by
    show recvs (stepOf o 1000 (xDown o o.pex) (yDown o o.pex) (xUp o o.pex) (yUp o o.pex)) _ _ = _
    have hxd : xDown o o.pex = -1 := by unfold xDown; rw [hp1]; rfl
    rw [recvs_step _ _ _ _ _ _ (D.nei _ h1) (Int.le_refl 0), if_neg (by rw [hxd]; rintro ⟨_, h⟩; omega), if_pos ⟨rfl, yd.symm⟩]
  have e1 : (sends (if 0 ≤ (0 : Int) ∧ (0 : Int) < o.size then (blocks o 0).flatten else []) o.pex 1000)[0]? = some (o.nx * o.kba * o.vars) := by
    rw [if_pos ⟨h0.1, h0.2⟩]
    unfold sends at s1 ⊢
    unfold blocks
    rw [hl, List.map_cons, List.cons_append, List.flatten_cons, List.filterMap_append, s1]; rfl
  have e2 : (recvs (if 0 ≤ o.pex ∧ o.pex < o.size then (blocks o o.pex).flatten else []) 0 1000)[0]? = some (o.ny * o.kba * o.vars) := by
    rw [if_pos ⟨h1.1, h1.2⟩]
    unfold recvs at r1 ⊢
    unfold blocks
    rw [hl, List.map_cons, List.cons_append, List.flatten_cons, List.filterMap_append, r1]; rfl
  have hle := hf' e1 e2
  have hk := g.kba
  have hlt : o.ny * o.kba * o.vars < o.nx * o.kba * o.vars := Int.mul_lt_mul_of_pos_right (Int.mul_lt_mul_of_pos_right hn hk) hv
  omega

/-- Two processes in y, blocks of 50 x 40. -/
example : Grid ⟨2, 1, 2, 50, 40, 10, 10, 1, 1⟩ ∧ app ⟨2, 1, 2, 50, 40, 10, 10, 1, 1⟩ ≠ none :=
  ⟨⟨by decide, by decide, by decide, by decide, by decide⟩, by unfold app; decide⟩

/-- With the default options, on one process, the program is accepted and sends a message to rank 1,
which does not exist. -/
theorem C128_sweep_default_refuted : ∃ W, app ⟨1, -1, -1, 50, 50, 100, 10, 1, 1⟩ = some W ∧ W.Has 0 ∧ .send 1 1000 500 ∈ W.prog 0 ∧ ¬ W.Has 1 := by
  refine ⟨_, rfl, ⟨by decide, by decide⟩, ?_, fun h => absurd h.2 (by decide)⟩
  show Instr.send 1 1000 500 ∈ (blocks ⟨1, -1, -1, 50, 50, 100, 10, 1, 1⟩ 0).flatten
  decide

end Verif.Apps.Sweep
