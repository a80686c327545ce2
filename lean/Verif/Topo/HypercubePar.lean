import Verif.Topo.HypercubeProps
/-
The progressive adaptive router of the hypercube (C74).
-/
set_option autoImplicit false
namespace SST.Topo.Hypercube
open SST.Topo

/-- Number of differing coordinates of two triples. -/
def hm (a b : Nat × Nat × Nat) : Nat := df a.1 b.1 + (df a.2.1 b.2.1 + df a.2.2 b.2.2)

theorem xyz_digits (X Y Z s : Nat) : xyz X Y Z s = (digit [X, Y, Z] 0 s, digit [X, Y, Z] 1 s, digit [X, Y, Z] 2 s) := by
  simp [xyz, digit, Nat.div_div_eq_div_mul]

section
variable {X Y Z : Nat} (hX : 0 < X) (hY : 0 < Y) (hZ : 0 < Z)
include hX hY hZ

theorem pos3 : ∀ D ∈ [X, Y, Z], 0 < D := by
  intro D hD
  simp at hD
  rcases hD with rfl | rfl | rfl <;> assumption

theorem xyz_lt (s : Nat) : (xyz X Y Z s).1 < X ∧ (xyz X Y Z s).2.1 < Y ∧ (xyz X Y Z s).2.2 < Z :=
  ⟨Nat.mod_lt _ hX, Nat.mod_lt _ hY, Nat.mod_lt _ hZ⟩

omit hX hY hZ in
theorem xyz_inj {s t : Nat} (hs : s < size [X, Y, Z]) (ht : t < size [X, Y, Z]) (h : xyz X Y Z s = xyz X Y Z t) : s = t := by
  rw [xyz_digits, xyz_digits] at h
  simp only [Prod.mk.injEq] at h
  apply eq_of_digits hs ht
  intro j hj
  match j, hj with
  | 0, _ => exact h.1
  | 1, _ => exact h.2.1
  | 2, _ => exact h.2.2
  | j + 3, hj => simp at hj; omega

omit hX hY hZ in
/-- The switch with given coordinates. -/
theorem addr3 {a b c : Nat} (ha : a < X) (hb : b < Y) (hc : c < Z) :
    switchAddr [X, Y, Z] [a, b, c] < size [X, Y, Z] ∧ xyz X Y Z (switchAddr [X, Y, Z] [a, b, c]) = (a, b, c) := by
  have hr : InRange [X, Y, Z] [a, b, c] := by simp [InRange, ha, hb, hc]
  rw [switchAddr_eq]
  refine ⟨addr_lt _ _ hr, ?_⟩
  have h := coords_addr _ _ hr
  rw [xyz_digits]
  have d0 := digit_coords [X, Y, Z] 0 (addr [X, Y, Z] [a, b, c]) (by simp)
  have d1 := digit_coords [X, Y, Z] 1 (addr [X, Y, Z] [a, b, c]) (by simp)
  have d2 := digit_coords [X, Y, Z] 2 (addr [X, Y, Z] [a, b, c]) (by simp)
  rw [h] at d0 d1 d2
  simp at d0 d1 d2
  rw [← d0, ← d1, ← d2]

/-- The links used by the router. -/
theorem link3 (hsz : size [X, Y, Z] ≤ 4294967296) (conc : Nat) {s : Nat} (hs : s < size [X, Y, Z]) :
    (∀ x, x < X → x ≠ (xyz X Y Z s).1 → ∃ t q, (net [X, Y, Z] conc).Link s x t q ∧ t < size [X, Y, Z] ∧
      xyz X Y Z t = (x, (xyz X Y Z s).2.1, (xyz X Y Z s).2.2)) ∧
    (∀ y, y < Y → y ≠ (xyz X Y Z s).2.1 → ∃ t q, (net [X, Y, Z] conc).Link s (y + X) t q ∧ t < size [X, Y, Z] ∧
      xyz X Y Z t = ((xyz X Y Z s).1, y, (xyz X Y Z s).2.2)) ∧
    (∀ z, z < Z → z ≠ (xyz X Y Z s).2.2 → ∃ t q, (net [X, Y, Z] conc).Link s (z + X + Y) t q ∧ t < size [X, Y, Z] ∧
      xyz X Y Z t = ((xyz X Y Z s).1, (xyz X Y Z s).2.1, z)) := by
  have hpos := pos3 hX hY hZ
  simp only [xyz_digits]
  refine ⟨?_, ?_, ?_⟩
  · intro x hx hne
    refine ⟨setAt [X, Y, Z] 0 x s, _, (link_iff hsz conc hs _ _ _).2 ⟨0, X, x, rfl, hx, hne, rfl, by simp [off], rfl⟩,
      setAt_lt _ 0 x s X rfl hx hs, ?_⟩
    rw [digit_setAt hpos rfl hx 0 (by simp), digit_setAt hpos rfl hx 1 (by simp), digit_setAt hpos rfl hx 2 (by simp)]
    simp
  · intro x hx hne
    refine ⟨setAt [X, Y, Z] 1 x s, _, (link_iff hsz conc hs _ _ _).2 ⟨1, Y, x, rfl, hx, hne, rfl, by simp [off]; omega, rfl⟩,
      setAt_lt _ 1 x s Y rfl hx hs, ?_⟩
    rw [digit_setAt hpos rfl hx 0 (by simp), digit_setAt hpos rfl hx 1 (by simp), digit_setAt hpos rfl hx 2 (by simp)]
    simp
  · intro x hx hne
    refine ⟨setAt [X, Y, Z] 2 x s, _, (link_iff hsz conc hs _ _ _).2 ⟨2, Z, x, rfl, hx, hne, rfl, by simp [off]; omega, rfl⟩,
      setAt_lt _ 2 x s Z rfl hx hs, ?_⟩
    rw [digit_setAt hpos rfl hx 0 (by simp), digit_setAt hpos rfl hx 1 (by simp), digit_setAt hpos rfl hx 2 (by simp)]
    simp

end

/-- What the header of a packet for `node` says after the first switch. -/
structure HOk (X Y Z conc node : Nat) (h : PHdr) : Prop where
  stage : h.stage ≠ 0
  dst : (h.dstX, h.dstY, h.dstZ) = xyz X Y Z (node / conc)
  ej : h.ejPort = node % conc + sum [X, Y, Z]
  dest : h.stage = 2 → h.dest < size [X, Y, Z]

/-- Hops left. -/
def left (X Y Z conc node s : Nat) (h : PHdr) : Nat :=
  if h.stage = 2 then hm (xyz X Y Z s) (xyz X Y Z h.dest) + hm (xyz X Y Z h.dest) (xyz X Y Z (node / conc))
  else if h.stage = 3 then hm (xyz X Y Z s) (xyz X Y Z (node / conc))
  else 2 * hm (xyz X Y Z s) (xyz X Y Z (node / conc))

/-- The two things that can happen at a switch. -/
def Fine (X Y Z conc node s : Nat) (h : PHdr) (p vc : Nat) (h' : PHdr) : Prop :=
  (s = node / conc ∧ p = node % conc + sum [X, Y, Z] ∧ vc = 0) ∨
  (∃ t q, (net [X, Y, Z] conc).Link s p t q ∧ t < size [X, Y, Z] ∧ HOk X Y Z conc node h' ∧ vc = h.nhops ∧
    h'.nhops = (h.nhops + 1) % 8 ∧ left X Y Z conc node t h' + 1 ≤ left X Y Z conc node s h)

section
variable {X Y Z : Nat} (hX : 0 < X ∧ X ≤ 64) (hY : 0 < Y ∧ Y ≤ 64) (hZ : 0 < Z ∧ Z ≤ 64) {conc node : Nat}
  (hp : conc + (X + (Y + Z)) ≤ 65536) (hc : 0 < conc) (hn : node < size [X, Y, Z] * conc)
include hX hY hZ

theorem size3 : size [X, Y, Z] ≤ 262144 := by
  simp only [size, Nat.mul_one]
  calc X * (Y * Z) ≤ 64 * (64 * 64) := Nat.mul_le_mul hX.2 (Nat.mul_le_mul hY.2 hZ.2)
    _ ≤ 262144 := by decide

omit hX hY hZ in
include hn in
theorem ej_lt : node / conc < size [X, Y, Z] := Nat.div_lt_of_lt_mul (by rw [Nat.mul_comm]; exact hn)

omit hX hY hZ in
theorem df_self (a : Nat) : df a a = 0 := by simp [df]
omit hX hY hZ in
theorem df_ne {a b : Nat} (h : a ≠ b) : df a b = 1 := by simp [df, h]
omit hX hY hZ in
theorem df_le (a b : Nat) : df a b ≤ 1 := by unfold df; split <;> omega

include hn in
theorem final_fine {s : Nat} (hs : s < size [X, Y, Z]) {h : PHdr} (hok : HOk X Y Z conc node h) (h3 : h.stage = 3) :
    Fine X Y Z conc node s h (finalStage X Y (xyz X Y Z s) h).1 (finalStage X Y (xyz X Y Z s) h).2.1
      (finalStage X Y (xyz X Y Z s) h).2.2 := by
  have hd := ej_lt hn
  have hsz := size3 hX hY hZ
  obtain ⟨l0, l1, l2⟩ := link3 hX.1 hY.1 hZ.1 (by omega) conc hs
  obtain ⟨b0, b1, b2⟩ := xyz_lt hX.1 hY.1 hZ.1 (node / conc)
  have hdst := hok.dst
  have hok' : HOk X Y Z conc node { h with nhops := (h.nhops + 1) % 8 } := ⟨hok.stage, hok.dst, hok.ej, hok.dest⟩
  rw [Prod.ext_iff, Prod.ext_iff] at hdst
  obtain ⟨e0, e1, e2⟩ := hdst
  simp only at e0 e1 e2
  rw [← e0] at b0
  rw [← e1] at b1
  rw [← e2] at b2
  unfold finalStage
  split
  · rename_i hne
    obtain ⟨t, q, hl, ht, hx⟩ := l0 h.dstX b0 hne
    refine Or.inr ⟨t, q, hl, ht, hok', rfl, rfl, ?_⟩
    simp only [left, hop, h3, reduceIte, Nat.reduceEqDiff, hm, hx, ← e0, ← e1, ← e2, df_self, df_ne (Ne.symm hne)]
    omega
  · rename_i h0
    split
    · rename_i hne
      obtain ⟨t, q, hl, ht, hx⟩ := l1 h.dstY b1 hne
      refine Or.inr ⟨t, q, hl, ht, hok', rfl, rfl, ?_⟩
      simp only [left, hop, h3, reduceIte, Nat.reduceEqDiff, hm, hx, ← e0, ← e1, ← e2, df_self, df_ne (Ne.symm hne)]
      omega
    · rename_i h1
      split
      · rename_i hne
        obtain ⟨t, q, hl, ht, hx⟩ := l2 h.dstZ b2 hne
        refine Or.inr ⟨t, q, hl, ht, hok', rfl, rfl, ?_⟩
        simp only [left, hop, h3, reduceIte, Nat.reduceEqDiff, hm, hx, ← e0, ← e1, ← e2, df_self, df_ne (Ne.symm hne)]
        omega
      · rename_i h2
        refine Or.inl ⟨?_, hok.ej, rfl⟩
        apply xyz_inj hs hd
        rw [Prod.ext_iff, Prod.ext_iff]
        simp only [ne_eq, Decidable.not_not] at h0 h1 h2
        exact ⟨by rw [← h0, e0], by rw [← h1, e1], by rw [← h2, e2]⟩

include hn in
theorem minimal_fine {s : Nat} (hs : s < size [X, Y, Z]) {h : PHdr} (hok : HOk X Y Z conc node h) (h1 : h.stage = 1)
    (r : Nat × Nat × Nat) (v : Bool) (hr : Drawn X Y Z s r) :
    Fine X Y Z conc node s h (minimalStage X Y Z (xyz X Y Z s) r v h).1 (minimalStage X Y Z (xyz X Y Z s) r v h).2.1
      (minimalStage X Y Z (xyz X Y Z s) r v h).2.2 := by
  have hd := ej_lt hn
  have hsz := size3 hX hY hZ
  obtain ⟨l0, l1, l2⟩ := link3 hX.1 hY.1 hZ.1 (by omega) conc hs
  obtain ⟨b0, b1, b2⟩ := xyz_lt hX.1 hY.1 hZ.1 (node / conc)
  obtain ⟨m0, m1, m2⟩ := xyz_lt hX.1 hY.1 hZ.1 s
  have hdst := hok.dst
  have hok' : HOk X Y Z conc node { h with nhops := (h.nhops + 1) % 8 } := ⟨hok.stage, hok.dst, hok.ej, hok.dest⟩
  rw [Prod.ext_iff, Prod.ext_iff] at hdst
  obtain ⟨e0, e1, e2⟩ := hdst
  simp only at e0 e1 e2
  rw [← e0] at b0
  rw [← e1] at b1
  rw [← e2] at b2
  obtain ⟨r0, r1, r2⟩ := hr
  -- the coordinates of the intermediate switch
  obtain ⟨c0, hc0⟩ : ∃ c0, c0 = if (xyz X Y Z s).1 = h.dstX then (xyz X Y Z s).1 else r.1 := ⟨_, rfl⟩
  obtain ⟨c1, hc1⟩ : ∃ c1, c1 = if (xyz X Y Z s).2.1 = h.dstY then (xyz X Y Z s).2.1 else r.2.1 := ⟨_, rfl⟩
  obtain ⟨c2, hc2⟩ : ∃ c2, c2 = if (xyz X Y Z s).2.2 = h.dstZ then (xyz X Y Z s).2.2 else r.2.2 := ⟨_, rfl⟩
  have k0 : c0 < X ∧ ((xyz X Y Z s).1 = h.dstX → c0 = h.dstX) ∧ ((xyz X Y Z s).1 ≠ h.dstX → c0 ≠ (xyz X Y Z s).1) := by
    split at hc0
    · exact ⟨by omega, by omega, by omega⟩
    · have := r0 (by omega); exact ⟨by omega, by omega, fun _ => by rw [hc0]; exact this.2⟩
  have k1 : c1 < Y ∧ ((xyz X Y Z s).2.1 = h.dstY → c1 = h.dstY) ∧ ((xyz X Y Z s).2.1 ≠ h.dstY → c1 ≠ (xyz X Y Z s).2.1) := by
    split at hc1
    · exact ⟨by omega, by omega, by omega⟩
    · have := r1 (by omega); exact ⟨by omega, by omega, fun _ => by rw [hc1]; exact this.2⟩
  have k2 : c2 < Z ∧ ((xyz X Y Z s).2.2 = h.dstZ → c2 = h.dstZ) ∧ ((xyz X Y Z s).2.2 ≠ h.dstZ → c2 ≠ (xyz X Y Z s).2.2) := by
    split at hc2
    · exact ⟨by omega, by omega, by omega⟩
    · have := r2 (by omega); exact ⟨by omega, by omega, fun _ => by rw [hc2]; exact this.2⟩
  obtain ⟨a1, a2⟩ := addr3 k0.1 k1.1 k2.1
  have hmod : switchAddr [X, Y, Z] [c0, c1, c2] % 16777216 = switchAddr [X, Y, Z] [c0, c1, c2] :=
    Nat.mod_eq_of_lt (by omega)
  -- the total way by the intermediate switch
  have f0 : df (xyz X Y Z s).1 c0 = df (xyz X Y Z s).1 h.dstX ∧ df c0 h.dstX ≤ df (xyz X Y Z s).1 h.dstX := by
    unfold df; have := k0.2; constructor <;> split <;> split <;> omega
  have f1 : df (xyz X Y Z s).2.1 c1 = df (xyz X Y Z s).2.1 h.dstY ∧ df c1 h.dstY ≤ df (xyz X Y Z s).2.1 h.dstY := by
    unfold df; have := k1.2; constructor <;> split <;> split <;> omega
  have f2 : df (xyz X Y Z s).2.2 c2 = df (xyz X Y Z s).2.2 h.dstZ ∧ df c2 h.dstZ ≤ df (xyz X Y Z s).2.2 h.dstZ := by
    unfold df; have := k2.2; constructor <;> split <;> split <;> omega
  have hokv : ∀ n, HOk X Y Z conc node { h with dest := switchAddr [X, Y, Z] [c0, c1, c2], stage := 2, nhops := n } :=
    fun n => ⟨by simp, hok.dst, hok.ej, fun _ => a1⟩
  unfold minimalStage
  simp only [← hc0, ← hc1, ← hc2, hmod]
  split
  · rename_i hne
    cases v
    · obtain ⟨t, q, hl, ht, hx⟩ := l0 h.dstX b0 (Ne.symm hne)
      refine Or.inr ⟨t, q, hl, ht, hok', rfl, rfl, ?_⟩
      simp only [left, hop, h1, reduceIte, Bool.false_eq_true, Nat.reduceEqDiff, hm, hx, ← e0, ← e1, ← e2, df_self, df_ne hne]
      omega
    · obtain ⟨t, q, hl, ht, hx⟩ := l0 c0 k0.1 (k0.2.2 hne)
      refine Or.inr ⟨t, q, hl, ht, hokv _, rfl, rfl, ?_⟩
      simp only [left, hop, h1, reduceIte, Bool.false_eq_true, Nat.reduceEqDiff, hm, hx, ← e0, ← e1, ← e2, a2, df_self]
      have := df_ne hne
      omega
  · rename_i h0
    simp only [ne_eq, Decidable.not_not] at h0
    split
    · rename_i hne
      cases v
      · obtain ⟨t, q, hl, ht, hx⟩ := l1 h.dstY b1 (Ne.symm hne)
        refine Or.inr ⟨t, q, hl, ht, hok', rfl, rfl, ?_⟩
        simp only [left, hop, h1, reduceIte, Bool.false_eq_true, Nat.reduceEqDiff, hm, hx, ← e0, ← e1, ← e2, df_self, df_ne hne]
        omega
      · obtain ⟨t, q, hl, ht, hx⟩ := l1 c1 k1.1 (k1.2.2 hne)
        refine Or.inr ⟨t, q, hl, ht, hokv _, rfl, rfl, ?_⟩
        simp only [left, hop, h1, reduceIte, Bool.false_eq_true, Nat.reduceEqDiff, hm, hx, ← e0, ← e1, ← e2, a2, df_self]
        have := df_ne hne
        omega
    · rename_i h0'
      simp only [ne_eq, Decidable.not_not] at h0'
      split
      · rename_i hne
        cases v
        · obtain ⟨t, q, hl, ht, hx⟩ := l2 h.dstZ b2 (Ne.symm hne)
          refine Or.inr ⟨t, q, hl, ht, hok', rfl, rfl, ?_⟩
          simp only [left, hop, h1, reduceIte, Bool.false_eq_true, Nat.reduceEqDiff, hm, hx, ← e0, ← e1, ← e2, df_self, df_ne hne]
          omega
        · obtain ⟨t, q, hl, ht, hx⟩ := l2 c2 k2.1 (k2.2.2 hne)
          refine Or.inr ⟨t, q, hl, ht, hokv _, rfl, rfl, ?_⟩
          simp only [left, hop, h1, reduceIte, Bool.false_eq_true, Nat.reduceEqDiff, hm, hx, ← e0, ← e1, ← e2, a2, df_self]
          have := df_ne hne
          omega
      · rename_i h2
        simp only [ne_eq, Decidable.not_not] at h2
        refine Or.inl ⟨?_, hok.ej, rfl⟩
        apply xyz_inj hs hd
        rw [Prod.ext_iff, Prod.ext_iff]
        exact ⟨by rw [h0, e0], by rw [h0', e1], by rw [h2, e2]⟩

include hn in
theorem step_fine {s : Nat} (hs : s < size [X, Y, Z]) {h : PHdr} (hok : HOk X Y Z conc node h) {p vc : Nat} {h' : PHdr}
    (hstage : h.stage < 4) (hr : prouter X Y Z conc s node h p vc h') : Fine X Y Z conc node s h p vc h' ∧ h'.stage < 4 := by
  have hsz := size3 hX hY hZ
  obtain ⟨r, v, hd, e⟩ := hr
  unfold proute at e
  simp only at e
  rw [if_neg hok.stage] at e
  by_cases h1 : h.stage = 1
  · rw [if_pos h1] at e
    have := minimal_fine hX hY hZ hn hs hok h1 r v hd
    rw [e] at this
    refine ⟨this, ?_⟩
    have e2 : h' = (minimalStage X Y Z (xyz X Y Z s) r v h).2.2 := by rw [e]
    rw [e2]
    unfold minimalStage hop
    simp only
    repeat' split
    all_goals simp
    all_goals omega
  rw [if_neg h1] at e
  by_cases h2 : h.stage = 2
  · rw [if_pos h2] at e
    have hdl := hok.dest h2
    split at e
    · rename_i hne
      obtain ⟨l0, l1, l2⟩ := link3 hX.1 hY.1 hZ.1 (by omega) conc hs
      obtain ⟨b0, b1, b2⟩ := xyz_lt hX.1 hY.1 hZ.1 h.dest
      have hok' : HOk X Y Z conc node { h with nhops := (h.nhops + 1) % 8 } := ⟨hok.stage, hok.dst, hok.ej, hok.dest⟩
      split at e
      · rename_i hn0
        simp only [hop, Prod.mk.injEq] at e
        obtain ⟨rfl, rfl, rfl⟩ := e
        obtain ⟨t, q, hl, ht, hx⟩ := l0 _ b0 hn0
        refine ⟨Or.inr ⟨t, q, hl, ht, hok', rfl, rfl, ?_⟩, hstage⟩
        simp only [left, h2, hm, hx, df_self, df_ne (Ne.symm hn0), if_true]
        omega
      · rename_i hn0
        split at e
        · rename_i hn1
          simp only [hop, Prod.mk.injEq] at e
          obtain ⟨rfl, rfl, rfl⟩ := e
          obtain ⟨t, q, hl, ht, hx⟩ := l1 _ b1 hn1
          refine ⟨Or.inr ⟨t, q, hl, ht, hok', rfl, rfl, ?_⟩, hstage⟩
          simp only [left, h2, hm, hx, df_self, df_ne (Ne.symm hn1), if_true]
          omega
        · rename_i hn1
          have hn2 : (xyz X Y Z h.dest).2.2 ≠ (xyz X Y Z s).2.2 := by
            intro e2
            apply hne
            apply xyz_inj hs hdl
            rw [Prod.ext_iff, Prod.ext_iff]
            simp only [ne_eq, Decidable.not_not] at hn0 hn1
            exact ⟨hn0.symm, hn1.symm, e2.symm⟩
          simp only [hop, Prod.mk.injEq] at e
          obtain ⟨rfl, rfl, rfl⟩ := e
          obtain ⟨t, q, hl, ht, hx⟩ := l2 _ b2 hn2
          refine ⟨Or.inr ⟨t, q, hl, ht, hok', rfl, rfl, ?_⟩, hstage⟩
          simp only [left, h2, hm, hx, df_self, df_ne (Ne.symm hn2), if_true]
          omega
    · rename_i hne
      simp only [ne_eq, Decidable.not_not] at hne
      have hok3 : HOk X Y Z conc node { h with stage := 3 } := ⟨by simp, hok.dst, hok.ej, by simp⟩
      have := final_fine hX hY hZ hn hs hok3 rfl
      rw [e] at this
      constructor
      · have hleft : left X Y Z conc node s { h with stage := 3 } = left X Y Z conc node s h := by
          simp only [left, h2, if_true]
          rw [← hne]
          simp [hm, df_self]
        rcases this with hh | ⟨t, q, hl, ht, hok', hv, hnh, hlt⟩
        · exact Or.inl hh
        · exact Or.inr ⟨t, q, hl, ht, hok', hv, hnh, by rw [← hleft]; exact hlt⟩
      · have e2 : h' = (finalStage X Y (xyz X Y Z s) { h with stage := 3 }).2.2 := by rw [e]
        rw [e2]
        unfold finalStage hop
        repeat' split
        all_goals simp
  · rw [if_neg h2] at e
    have h3 : h.stage = 3 := by have := hok.stage; omega
    have := final_fine hX hY hZ hn hs hok h3
    rw [e] at this
    refine ⟨this, ?_⟩
    have e2 : h' = (finalStage X Y (xyz X Y Z s) h).2.2 := by rw [e]
    rw [e2]
    unfold finalStage hop
    repeat' split
    all_goals simp [h3]

omit hX hY hZ in
/-- There always is a draw. -/
theorem exists_drawn (s : Nat) : ∃ r, Drawn X Y Z s r := by
  have : ∀ D m : Nat, ∃ x, 2 ≤ D → x < D ∧ x ≠ m := by
    intro D m
    by_cases h : m = 0
    · exact ⟨1, by omega⟩
    · exact ⟨0, by omega⟩
  obtain ⟨x, hx⟩ := this X (xyz X Y Z s).1
  obtain ⟨y, hy⟩ := this Y (xyz X Y Z s).2.1
  obtain ⟨z, hz⟩ := this Z (xyz X Y Z s).2.2
  exact ⟨(x, y, z), hx, hy, hz⟩

include hn hc in
theorem within {n s : Nat} {h : PHdr} (hs : s < size [X, Y, Z]) (hok : HOk X Y Z conc node h) (hst : h.stage < 4)
    (hl : left X Y Z conc node s h ≤ n) (hh : h.nhops + n ≤ 6) :
    DeliversWithin (net [X, Y, Z] conc) (prouter X Y Z conc) 6 node n s h := by
  induction n generalizing s h with
  | zero =>
    obtain ⟨r, hr⟩ := exists_drawn (X := X) (Y := Y) (Z := Z) s
    refine ⟨⟨_, _, _, r, true, hr, rfl⟩, ?_⟩
    intro p vc h' hR
    rcases (step_fine hX hY hZ hn hs hok hst hR).1 with ⟨e, rfl, rfl⟩ | ⟨t, q, _, _, _, _, _, hlt⟩
    · subst e
      exact ⟨by omega, eject_mem hc⟩
    · omega
  | succ n ih =>
    obtain ⟨r, hr⟩ := exists_drawn (X := X) (Y := Y) (Z := Z) s
    refine ⟨⟨_, _, _, r, true, hr, rfl⟩, ?_⟩
    intro p vc h' hR
    obtain ⟨hf, hst'⟩ := step_fine hX hY hZ hn hs hok hst hR
    rcases hf with ⟨e, rfl, rfl⟩ | ⟨t, q, hl', ht, hok', hv, hnh, hlt⟩
    · subst e
      exact ⟨by omega, Or.inl (eject_mem hc)⟩
    · refine ⟨by omega, Or.inr ⟨t, q, hl', ih ht hok' hst' (by omega) ?_⟩⟩
      rw [hnh, Nat.mod_eq_of_lt (by omega)]
      omega

include hp hc in
/-- The header set up at the first switch. -/
theorem first_ok : HOk X Y Z conc node
    { dstX := (xyz X Y Z (node / conc)).1 % 64, dstY := (xyz X Y Z (node / conc)).2.1 % 64,
      dstZ := (xyz X Y Z (node / conc)).2.2 % 64, ejPort := (node % conc + sum [X, Y, Z]) % 65536, stage := 1 } := by
  obtain ⟨b0, b1, b2⟩ := xyz_lt hX.1 hY.1 hZ.1 (node / conc)
  refine ⟨by simp, ?_, ?_, by simp⟩
  · rw [Prod.ext_iff, Prod.ext_iff]
    exact ⟨Nat.mod_eq_of_lt (by omega), Nat.mod_eq_of_lt (by omega), Nat.mod_eq_of_lt (by omega)⟩
  · have := Nat.mod_lt node hc
    exact Nat.mod_eq_of_lt (by simp only [sum]; omega)

omit hX hY hZ in
theorem first_step {s p vc : Nat} {h' : PHdr} (hne : node / conc ≠ s) : prouter X Y Z conc s node {} p vc h' ↔
    prouter X Y Z conc s node
      { dstX := (xyz X Y Z (node / conc)).1 % 64, dstY := (xyz X Y Z (node / conc)).2.1 % 64,
        dstZ := (xyz X Y Z (node / conc)).2.2 % 64, ejPort := (node % conc + sum [X, Y, Z]) % 65536, stage := 1 } p vc h' := by
  unfold prouter proute
  simp [hne]

omit hX hY hZ in
theorem hm_le (a b : Nat × Nat × Nat) : hm a b ≤ 3 := by
  have := df_le a.1 b.1
  have := df_le a.2.1 b.2.1
  have := df_le a.2.2 b.2.2
  unfold hm
  omega

end

/-- C74, delivery: on a three-dimensional hypercube the progressive adaptive router delivers
every packet within six hops on its six virtual channels, whatever is drawn and whatever the
queue lengths.  The header has six bits per coordinate and sixteen for the port, hence the
bounds. -/
theorem C74_hypercube_par_delivers_partial (X Y Z : Nat) (hX : 0 < X ∧ X ≤ 64) (hY : 0 < Y ∧ Y ≤ 64) (hZ : 0 < Z ∧ Z ≤ 64)
    (conc : Nat) (hp : conc + (X + (Y + Z)) ≤ 65536) (hc : 0 < conc) (s node : Nat) (hs : s < size [X, Y, Z])
    (hn : node < size [X, Y, Z] * conc) :
    DeliversWithin (net [X, Y, Z] conc) (prouter X Y Z conc) 6 node 6 s {} := by
  have hok := first_ok hX hY hZ (node := node) hp hc
  by_cases hne : node / conc = s
  · obtain ⟨r, hr⟩ := exists_drawn (X := X) (Y := Y) (Z := Z) s
    refine ⟨⟨_, _, _, r, true, hr, rfl⟩, ?_⟩
    rintro p vc h' ⟨r, v, hd, e⟩
    unfold proute at e
    simp only [if_true, hne, Prod.mk.injEq] at e
    obtain ⟨rfl, rfl, _⟩ := e
    refine ⟨by omega, Or.inl ?_⟩
    have := hok.ej
    simp only at this
    rw [this, ← hne]
    exact eject_mem hc
  · have hh : ∀ h0, (∀ p vc h', prouter X Y Z conc s node {} p vc h' ↔ prouter X Y Z conc s node h0 p vc h') →
        DeliversWithin (net [X, Y, Z] conc) (prouter X Y Z conc) 6 node 6 s h0 →
        DeliversWithin (net [X, Y, Z] conc) (prouter X Y Z conc) 6 node 6 s {} := by
      intro h0 he hd
      unfold DeliversWithin at hd ⊢
      simpa only [he] using hd
    refine hh _ (fun p vc h' => first_step hne) (within hX hY hZ hc hn hs hok (by simp) ?_ (by simp))
    have := hm_le (xyz X Y Z s) (xyz X Y Z (node / conc))
    simp [left]
    omega

/-- C74 is false in larger dimensions: the six-bit coordinate is cut, and the packet for switch
64 of a row of 65 is delivered to switch 0. -/
theorem C74_hypercube_par_delivers_refuted :
    ¬ ∀ (X Y Z conc s node : Nat), 0 < X → 0 < Y → 0 < Z → 0 < conc → s < size [X, Y, Z] → node < size [X, Y, Z] * conc →
      DeliversWithin (net [X, Y, Z] conc) (prouter X Y Z conc) 6 node 6 s {} := by
  intro h
  have h := h 65 1 1 1 0 64 (by decide) (by decide) (by decide) (by decide) (by decide) (by decide)
  obtain ⟨_, h⟩ := h
  have := (h 67 0 { stage := 1, nhops := 0, dstX := 0, dstY := 0, dstZ := 0, ejPort := 67 }
    ⟨(1, 0, 0), true, ⟨by intro _; decide, by omega, by omega⟩, by decide⟩).2
  rcases this with this | ⟨t, q, hl, _⟩
  · revert this
    decide
  · have := outport_lt hl
    simp [sum] at this

/-- C74, deadlock: each hop of a packet is on a higher virtual channel than the one before. -/
theorem C74_hypercube_par_deadlock_free_partial (X Y Z : Nat) (hX : 0 < X ∧ X ≤ 64) (hY : 0 < Y ∧ Y ≤ 64)
    (hZ : 0 < Z ∧ Z ≤ 64) (conc : Nat) (hp : conc + (X + (Y + Z)) ≤ 65536) (hc : 0 < conc) :
    DeadlockFree (net [X, Y, Z] conc) (prouter X Y Z conc) {} (size [X, Y, Z] * conc) := by
  intro c
  apply acyclic_of_rank (fun c => (c.2.2, 0))
  rintro _ _ ⟨node, s, h, p, vc, h', t, q, p', vc', h'', u, q', hn, hf, hr, hl, hr', hl', rfl, rfl⟩
  left
  have hok0 := first_ok hX hY hZ (node := node) hp hc
  -- packets that have left their first switch
  have hstep : ∀ s h p vc h' t q, s < size [X, Y, Z] → HOk X Y Z conc node h → h.stage < 4 →
      h.nhops + left X Y Z conc node s h ≤ 6 → prouter X Y Z conc s node h p vc h' → (net [X, Y, Z] conc).Link s p t q →
      vc = h.nhops ∧ h'.nhops = h.nhops + 1 ∧ t < size [X, Y, Z] ∧ HOk X Y Z conc node h' ∧ h'.stage < 4 ∧
        h'.nhops + left X Y Z conc node t h' ≤ 6 := by
    intro s h p vc h' t q hs hok hst hb hr hl
    obtain ⟨hf, hst'⟩ := step_fine hX hY hZ hn hs hok hst hr
    rcases hf with ⟨e, rfl, rfl⟩ | ⟨t2, q2, hl2, ht, hok', hv, hnh, hlt⟩
    · have := outport_lt hl
      omega
    · obtain ⟨rfl, rfl⟩ := link_unique hl hl2
      rw [Nat.mod_eq_of_lt (by omega)] at hnh
      exact ⟨hv, hnh, ht, hok', hst', by omega⟩
  have hfirst : ∀ s p vc h' t q, s < size [X, Y, Z] → prouter X Y Z conc s node {} p vc h' → (net [X, Y, Z] conc).Link s p t q →
      vc = 0 ∧ h'.nhops = 1 ∧ t < size [X, Y, Z] ∧ HOk X Y Z conc node h' ∧ h'.stage < 4 ∧
        h'.nhops + left X Y Z conc node t h' ≤ 6 := by
    intro s p vc h' t q hs hr hl
    by_cases hne : node / conc = s
    · obtain ⟨r, v, hd, e⟩ := hr
      unfold proute at e
      simp only [if_true, hne, Prod.mk.injEq] at e
      have h1 := hok0.ej
      simp only at h1
      have := outport_lt hl
      omega
    · rw [first_step hne] at hr
      have := hm_le (xyz X Y Z s) (xyz X Y Z (node / conc))
      exact hstep s _ p vc h' t q hs hok0 (by simp) (by simp [left]; omega) hr hl
  have hinv : s < size [X, Y, Z] ∧ (h = {} ∨
      (HOk X Y Z conc node h ∧ h.stage < 4 ∧ h.nhops + left X Y Z conc node s h ≤ 6)) := by
    clear hr hl hr' hl'
    induction hf with
    | inject hs _ => exact ⟨hs, Or.inl rfl⟩
    | hop hf hr hl ih =>
      obtain ⟨hs, rfl | ⟨h1, h2, h3⟩⟩ := ih
      · obtain ⟨_, _, a, b, c, d⟩ := hfirst _ _ _ _ _ _ hs hr hl
        exact ⟨a, Or.inr ⟨b, c, d⟩⟩
      · obtain ⟨_, _, a, b, c, d⟩ := hstep _ _ _ _ _ _ _ hs h1 h2 h3 hr hl
        exact ⟨a, Or.inr ⟨b, c, d⟩⟩
  obtain ⟨hs, rfl | ⟨h1, h2, h3⟩⟩ := hinv
  · obtain ⟨e1, e2, a, b, c, d⟩ := hfirst _ _ _ _ _ _ hs hr hl
    have := (hstep _ _ _ _ _ _ _ a b c d hr' hl').1
    simp only
    omega
  · obtain ⟨e1, e2, a, b, c, d⟩ := hstep _ _ _ _ _ _ _ hs h1 h2 h3 hr hl
    have := (hstep _ _ _ _ _ _ _ a b c d hr' hl').1
    simp only
    omega

/-- A non-minimal choice: from switch 0 of a 3x3x3 cube to node 13 (coordinates (1,1,1)) by way
of (2,2,2). -/
example : proute 3 3 3 1 0 13 (2, 2, 2) true {} =
    (2, 0, { stage := 2, nhops := 1, dstX := 1, dstY := 1, dstZ := 1, ejPort := 9, dest := 26 }) ∧ Drawn 3 3 3 0 (2, 2, 2) := by
  unfold Drawn; decide

end SST.Topo.Hypercube
