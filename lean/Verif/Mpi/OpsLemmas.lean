import Verif.Mpi.Ops
/-!
Lemmas about the integers of C++ in `Verif.Mpi.Ops`: conversion, bits, and the loop over elements.
-/
set_option autoImplicit false
namespace SST.Mpi.Ops

/-- A value of the type. -/
def CT.Fits (t : CT) (x : Int) : Prop := t.lo ≤ x ∧ x ≤ t.hi

/-- Bit `i` of an integer in two's complement. -/
def bit (x : Int) (i : Nat) : Prop := x / 2 ^ i % 2 = 1

/-- Number of bits. -/
def CT.w : CT → Nat
  | .int _ w => w
  | .bool => 1

theorem two_pow_half {w : Nat} (hw : 0 < w) : (2 : Int) ^ w = 2 * 2 ^ (w - 1) := by
  obtain ⟨k, rfl⟩ : ∃ k, w = k + 1 := ⟨w - 1, by omega⟩
  rw [Nat.add_sub_cancel, Int.pow_succ]; omega

theorem two_pow_pos (w : Nat) : (0 : Int) < 2 ^ w := Int.pow_pos (by decide)

theorem conv_mod (s : Bool) {w : Nat} (hw : 0 < w) (r : Int) : conv (.int s w) r % 2 ^ w = r % 2 ^ w := by
  cases s with
  | false => exact Int.emod_emod_of_dvd _ (Int.dvd_refl _)
  | true =>
    show (if r % 2 ^ w < 2 ^ (w - 1) then r % 2 ^ w else r % 2 ^ w - 2 ^ w) % 2 ^ w = _
    split
    · exact Int.emod_emod_of_dvd _ (Int.dvd_refl _)
    · rw [Int.sub_emod_right]; exact Int.emod_emod_of_dvd _ (Int.dvd_refl _)

theorem conv_fits (t : CT) (ht : 0 < t.w) (r : Int) : t.Fits (conv t r) := by
  match t with
  | .bool =>
    show (0 : Int) ≤ (if r = 0 then 0 else 1) ∧ (if r = 0 then 0 else 1) ≤ (1 : Int)
    split <;> omega
  | .int false w =>
    have h1 := Int.emod_nonneg r (Int.ne_of_gt (two_pow_pos w))
    have h2 := Int.emod_lt_of_pos r (two_pow_pos w)
    show (0 : Int) ≤ r % 2 ^ w ∧ r % 2 ^ w ≤ 2 ^ w - 1
    omega
  | .int true w =>
    have h1 := Int.emod_nonneg r (Int.ne_of_gt (two_pow_pos w))
    have h2 := Int.emod_lt_of_pos r (two_pow_pos w)
    have h3 := two_pow_half (w := w) ht
    show -(2 : Int) ^ (w - 1) ≤ (if r % 2 ^ w < 2 ^ (w - 1) then r % 2 ^ w else r % 2 ^ w - 2 ^ w) ∧
      (if r % 2 ^ w < 2 ^ (w - 1) then r % 2 ^ w else r % 2 ^ w - 2 ^ w) ≤ (2 : Int) ^ (w - 1) - 1
    split <;> omega

/-- Values of a type are determined by their bits. -/
theorem eq_of_mod {s : Bool} {w : Nat} (hw : 0 < w) {x y : Int} (hx : (CT.int s w).Fits x)
    (hy : (CT.int s w).Fits y) (h : x % 2 ^ w = y % 2 ^ w) : x = y := by
  have hp := two_pow_pos w
  have h3 := two_pow_half hw
  have dx := Int.mul_ediv_add_emod x (2 ^ w)
  have dy := Int.mul_ediv_add_emod y (2 ^ w)
  generalize x / 2 ^ w = a at dx
  generalize y / 2 ^ w = b at dy
  have hd : x - y = 2 ^ w * (a - b) := by rw [Int.mul_sub]; omega
  have hr : -(2 : Int) ^ w < x - y ∧ x - y < 2 ^ w := by
    cases s with
    | false =>
      have h1 : (0 : Int) ≤ x ∧ x ≤ 2 ^ w - 1 := hx
      have h2 : (0 : Int) ≤ y ∧ y ≤ 2 ^ w - 1 := hy
      omega
    | true =>
      have h1 : -(2 : Int) ^ (w - 1) ≤ x ∧ x ≤ 2 ^ (w - 1) - 1 := hx
      have h2 : -(2 : Int) ^ (w - 1) ≤ y ∧ y ≤ 2 ^ (w - 1) - 1 := hy
      omega
  have hz : a - b = 0 := by
    rw [hd] at hr
    rcases Int.lt_trichotomy (a - b) 0 with h0 | h0 | h0
    · have := Int.mul_le_mul_of_nonneg_left (show a - b ≤ -1 by omega) (Int.le_of_lt hp)
      omega
    · exact h0
    · have := Int.mul_le_mul_of_nonneg_left (show 1 ≤ a - b by omega) (Int.le_of_lt hp)
      omega
  rw [hz] at hd
  omega

theorem conv_id {t : CT} (ht : 0 < t.w) {x : Int} (hx : t.Fits x) : conv t x = x := by
  match t with
  | .bool =>
    have : (0 : Int) ≤ x ∧ x ≤ 1 := hx
    show (if x = 0 then (0 : Int) else 1) = x
    split <;> omega
  | .int s w => exact eq_of_mod (show 0 < w from ht) (conv_fits _ ht x) hx (conv_mod s ht x)

theorem bit_congr {w : Nat} {x y : Int} (h : x % 2 ^ w = y % 2 ^ w) {i : Nat} (hi : i < w) : bit x i ↔ bit y i := by
  have dx := Int.mul_ediv_add_emod x (2 ^ w)
  have dy := Int.mul_ediv_add_emod y (2 ^ w)
  generalize x / 2 ^ w = a at dx
  generalize y / 2 ^ w = b at dy
  have hd : x = y + 2 ^ w * (a - b) := by rw [Int.mul_sub]; omega
  obtain ⟨k, rfl⟩ : ∃ k, w = i + (k + 1) := ⟨w - i - 1, by omega⟩
  have hpw : (2 : Int) ^ (i + (k + 1)) * (a - b) = 2 ^ i * (2 * (2 ^ k * (a - b))) := by
    rw [Int.pow_add, Int.pow_succ, Int.mul_assoc, Int.mul_assoc, ← Int.mul_assoc 2]
    congr 1
    rw [← Int.mul_assoc, Int.mul_comm ((2 : Int) ^ k) 2]
  rw [hpw] at hd
  generalize (2 : Int) ^ k * (a - b) = c at hd
  unfold bit
  rw [hd, Int.add_mul_ediv_left _ _ (Int.ne_of_gt (two_pow_pos i))]
  omega

theorem bit_natCast (n i : Nat) : bit (n : Int) i ↔ n.testBit i = true := by
  unfold bit
  rw [Nat.testBit_eq_decide_div_mod_eq]
  have h : ((n : Int) / 2 ^ i) = ((n / 2 ^ i : Nat) : Int) := by
    rw [Int.natCast_ediv]; simp
  rw [h]
  simp only [decide_eq_true_eq]
  omega

theorem bits_bit (t : CT) (x : Int) {i : Nat} (hi : i < (prom t).2) : (bits t x).testBit i = true ↔ bit x i := by
  rw [← bit_natCast]
  unfold bits
  rw [Int.toNat_of_nonneg (Int.emod_nonneg _ (Int.ne_of_gt (two_pow_pos _)))]
  exact bit_congr (Int.emod_emod_of_dvd _ (Int.dvd_refl _)) hi

theorem prom_w (s : Bool) (w : Nat) : w ≤ (prom (.int s w)).2 := by
  unfold prom; dsimp only; split
  · show w ≤ 32; omega
  · exact Nat.le_refl _

theorem bit_conv {s : Bool} {w : Nat} (hw : 0 < w) (n : Nat) {i : Nat} (hi : i < w) :
    bit (conv (.int s w) (n : Int)) i ↔ n.testBit i = true :=
  (bit_congr (conv_mod s hw _) hi).trans (bit_natCast n i)

/-! ### The loop -/

theorem reduceOp_some {α : Type} [Inhabited α] {f : α → α → Option α} : ∀ {n : Nat} {a b : List α}, a.length = n → b.length = n →
    ∀ {r : List α}, reduceOp f n a b = some r → r.length = n ∧ ∀ i, i < n → f a[i]! b[i]! = some r[i]!
  | 0, a, b, ha, hb, r, h => by
    rw [reduceOp] at h
    cases h
    exact ⟨ha, fun i hi => absurd hi (Nat.not_lt_zero i)⟩
  | n + 1, [], b, ha, hb, r, h => by simp at ha
  | n + 1, x :: a, [], ha, hb, r, h => by simp at hb
  | n + 1, x :: a, y :: b, ha, hb, r, h => by
    rw [reduceOp] at h
    split at h
    · next c r' hc hr =>
      cases h
      have ih := reduceOp_some (by simpa using ha) (by simpa using hb) hr
      refine ⟨by simp [ih.1], fun i hi => ?_⟩
      cases i with
      | zero => simpa using hc
      | succ i => simpa using ih.2 i (by omega)
    · cases h

theorem reduceOp_isSome {α : Type} [Inhabited α] {f : α → α → Option α} : ∀ {n : Nat} {a b : List α}, a.length = n → b.length = n →
    (∀ i, i < n → (f a[i]! b[i]!).isSome) → ∃ r, reduceOp f n a b = some r
  | 0, a, b, ha, hb, h => ⟨a, by rw [reduceOp]⟩
  | n + 1, [], b, ha, hb, h => by simp at ha
  | n + 1, x :: a, [], ha, hb, h => by simp at hb
  | n + 1, x :: a, y :: b, ha, hb, h => by
    have h0 := h 0 (by omega)
    simp only [List.getElem!_cons_zero] at h0
    obtain ⟨c, hc⟩ := Option.isSome_iff_exists.1 h0
    obtain ⟨r, hr⟩ := reduceOp_isSome (f := f) (n := n) (a := a) (b := b) (by simpa using ha) (by simpa using hb)
      (fun i hi => by simpa using h (i + 1) (by omega))
    exact ⟨c :: r, by rw [reduceOp, hc, hr]⟩

/-! ### Trees -/

/-- Element `i` of the contributions of the ranks of the tree. -/
def Tree.col {α : Type} [Inhabited α] (T : Tree) (d : Nat → List α) (i : Nat) : List α := T.ranks.map (fun r => (d r)[i]!)

/-- A relation between the contributions and the result that each combination keeps. -/
theorem eval_inv {t : CT} {f : Tmpl} {n : Nat} {d : Nat → List Int} (Q : List Int → Int → Prop)
    (h1 : ∀ x, t.Fits x → Q [x] x)
    (h2 : ∀ l m a b c, t.Fits a → t.Fits b → Q l a → Q m b → apply t f a b = some c → t.Fits c ∧ Q (l ++ m) c) :
    ∀ (T : Tree), (∀ r ∈ T.ranks, (d r).length = n ∧ ∀ x ∈ d r, t.Fits x) →
      ∀ {res : List Int}, T.eval (Fxn.run n (.int t f)) d = .ok res →
        res.length = n ∧ ∀ i, i < n → t.Fits res[i]! ∧ Q (T.col d i) res[i]!
  | .leaf r, hd, res, h => by
    have hr := hd r (by simp [Tree.ranks])
    cases h
    refine ⟨hr.1, fun i hi => ?_⟩
    have hm : (d r)[i]! ∈ d r := by
      rw [getElem!_pos (d r) i (by omega)]; exact List.getElem_mem _
    exact ⟨hr.2 _ hm, h1 _ (hr.2 _ hm)⟩
  | .node l r, hd, res, h => by
    simp only [Tree.ranks, List.mem_append] at hd
    rw [Tree.eval] at h
    split at h
    · next a b ha hb =>
      have il := eval_inv Q h1 h2 l (fun q hq => hd q (.inl hq)) ha
      have ir := eval_inv Q h1 h2 r (fun q hq => hd q (.inr hq)) hb
      rw [Fxn.run] at h
      split at h
      · next r' hr' =>
        cases h
        have hs := reduceOp_some il.1 ir.1 hr'
        refine ⟨hs.1, fun i hi => ?_⟩
        have := h2 _ _ _ _ _ (il.2 i hi).1 (ir.2 i hi).1 (il.2 i hi).2 (ir.2 i hi).2 (hs.2 i hi)
        simpa [Tree.col, Tree.ranks] using this
      · cases h
    · cases h
    · cases h

/-- If moreover each combination has a result under the relation, so has the reduction. -/
theorem eval_ok {t : CT} {f : Tmpl} {n : Nat} {d : Nat → List Int} (Q : List Int → Int → Prop) (P : List Int → Prop)
    (hPl : ∀ l m, P (l ++ m) → P l ∧ P m)
    (h1 : ∀ x, t.Fits x → Q [x] x)
    (h2 : ∀ l m a b c, t.Fits a → t.Fits b → Q l a → Q m b → apply t f a b = some c → t.Fits c ∧ Q (l ++ m) c)
    (h3 : ∀ l m a b, t.Fits a → t.Fits b → Q l a → Q m b → P (l ++ m) → (apply t f a b).isSome) :
    ∀ (T : Tree), (∀ r ∈ T.ranks, (d r).length = n ∧ ∀ x ∈ d r, t.Fits x) → (∀ i, i < n → P (T.col d i)) →
      ∃ res, T.eval (Fxn.run n (.int t f)) d = .ok res
  | .leaf r, hd, hP => ⟨d r, rfl⟩
  | .node l r, hd, hP => by
    simp only [Tree.ranks, List.mem_append] at hd
    have hc : ∀ i, (Tree.node l r).col d i = l.col d i ++ r.col d i := fun i => by simp [Tree.col, Tree.ranks]
    have dl : ∀ q ∈ l.ranks, (d q).length = n ∧ ∀ x ∈ d q, t.Fits x := fun q hq => hd q (.inl hq)
    have dr : ∀ q ∈ r.ranks, (d q).length = n ∧ ∀ x ∈ d q, t.Fits x := fun q hq => hd q (.inr hq)
    obtain ⟨a, ha⟩ := eval_ok Q P hPl h1 h2 h3 l dl (fun i hi => (hPl _ _ (hc i ▸ hP i hi)).1)
    obtain ⟨b, hb⟩ := eval_ok Q P hPl h1 h2 h3 r dr (fun i hi => (hPl _ _ (hc i ▸ hP i hi)).2)
    have il := eval_inv Q h1 h2 l dl ha
    have ir := eval_inv Q h1 h2 r dr hb
    obtain ⟨c, hcc⟩ := reduceOp_isSome (f := apply t f) il.1 ir.1 (fun i hi =>
      h3 _ _ _ _ (il.2 i hi).1 (ir.2 i hi).1 (il.2 i hi).2 (ir.2 i hi).2 (hc i ▸ hP i hi))
    exact ⟨c, by rw [Tree.eval, ha, hb]; show Fxn.run n (.int t f) a b = .ok c; rw [Fxn.run, hcc]⟩

end SST.Mpi.Ops
