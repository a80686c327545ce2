import Verif.Apps.Hpcg
set_option autoImplicit false
/-
The counter of the HPCG skeleton: the loop visits every value except zero.
-/
namespace Verif.Apps.Hpcg

/-- Two lists of equal length, the first nowhere above the second. -/
def Le : List Nat → List Nat → Prop
  | [], [] => True
  | a :: l, b :: m => a ≤ b ∧ Le l m
  | _, _ => False

/-- The value of a counter. -/
def val : List Nat → List Nat → Nat
  | c :: cs, m :: ms => c + (m + 1) * val cs ms
  | _, _ => 0

theorem total_cons (a : Nat) (m : List Nat) : total (a :: m) = (a + 1) * total m := rfl

theorem total_pos (m : List Nat) : 0 < total m := by
  induction m with
  | nil => decide
  | cons a m ih => rw [total_cons]; exact Nat.mul_pos (by omega) ih

theorem val_lt : ∀ (c m : List Nat), Le c m → val c m < total m
  | [], [], _ => by decide
  | c :: cs, m :: ms, h => by
    have ih := val_lt cs ms h.2
    have h1 := h.1
    rw [total_cons]
    have : (m + 1) * (val cs ms + 1) ≤ (m + 1) * total ms := Nat.mul_le_mul_left _ ih
    rw [Nat.mul_add] at this
    simp only [val]; omega
  | [], _ :: _, h => absurd h (by simp [Le])
  | _ :: _, [], h => absurd h (by simp [Le])

theorem next_le : ∀ (c m : List Nat), Le c m → Le (next c m) m
  | [], [], _ => trivial
  | c :: cs, m :: ms, h => by
    have ih := next_le cs ms h.2
    have h1 := h.1
    simp only [next]
    split
    · exact ⟨by omega, ih⟩
    · exact ⟨by omega, h.2⟩
  | [], _ :: _, h => absurd h (by simp [Le])
  | _ :: _, [], h => absurd h (by simp [Le])

theorem next_val : ∀ (c m : List Nat), Le c m →
    val (next c m) m = if val c m + 1 < total m then val c m + 1 else 0
  | [], [], _ => by decide
  | c :: cs, m :: ms, h => by
    have ih := next_val cs ms h.2
    have h1 := h.1
    have hv := val_lt cs ms h.2
    have e1 : (m + 1) * (val cs ms + 1) ≤ (m + 1) * total ms := Nat.mul_le_mul_left _ hv
    rw [Nat.mul_add] at e1
    have k1 : val (c :: cs) (m :: ms) = c + (m + 1) * val cs ms := rfl
    have k2 := total_cons m ms
    by_cases hc : c + 1 > m
    · have k3 : val (next (c :: cs) (m :: ms)) (m :: ms) = 0 + (m + 1) * val (next cs ms) ms := by
        simp only [next, hc, if_true, val]
      rw [k3, ih]
      by_cases hh : val cs ms + 1 < total ms
      · have e2 : (m + 1) * (val cs ms + 2) ≤ (m + 1) * total ms := Nat.mul_le_mul_left _ hh
        rw [Nat.mul_add] at e2
        rw [if_pos hh, if_pos (by omega), Nat.mul_add]; omega
      · have k4 : total ms = val cs ms + 1 := by omega
        rw [k4, Nat.mul_add] at k2
        rw [if_neg hh, if_neg (by omega)]; omega
    · have k3 : val (next (c :: cs) (m :: ms)) (m :: ms) = c + 1 + (m + 1) * val cs ms := by
        simp only [next, hc, if_false, val]
      rw [k3, if_pos (by omega)]; omega
  | [], _ :: _, h => absurd h (by simp [Le])
  | _ :: _, [], h => absurd h (by simp [Le])

theorem val_inj : ∀ (c d m : List Nat), Le c m → Le d m → val c m = val d m → c = d
  | [], [], [], _, _, _ => rfl
  | c :: cs, d :: ds, m :: ms, h, k, e => by
    have h1 := h.1
    have k1 := k.1
    simp only [val] at e
    have e1 : (c + (m + 1) * val cs ms) % (m + 1) = (d + (m + 1) * val ds ms) % (m + 1) := by rw [e]
    rw [Nat.add_mul_mod_self_left, Nat.add_mul_mod_self_left, Nat.mod_eq_of_lt (by omega), Nat.mod_eq_of_lt (by omega)] at e1
    have e2 : (m + 1) * val cs ms = (m + 1) * val ds ms := by omega
    have e3 := Nat.eq_of_mul_eq_mul_left (by omega) e2
    rw [e1, val_inj cs ds ms h.2 k.2 e3]
  | [], _, _ :: _, h, _, _ => absurd h (by simp [Le])
  | _ :: _, _, [], h, _, _ => absurd h (by simp [Le])
  | _, [], _ :: _, _, h, _ => absurd h (by simp [Le])
  | _, _ :: _, [], _, h, _ => absurd h (by simp [Le])

theorem isZero_iff : ∀ (c m : List Nat), Le c m → (isZero c = true ↔ val c m = 0)
  | [], [], _ => by decide
  | c :: cs, m :: ms, h => by
    have ih := isZero_iff cs ms h.2
    have e : isZero (c :: cs) = true ↔ c = 0 ∧ isZero cs = true := by simp [isZero]
    rw [e, ih]
    simp only [val]
    constructor
    · rintro ⟨a, b⟩; rw [a, b]; simp
    · intro hh
      refine ⟨by omega, ?_⟩
      have : (m + 1) * val cs ms = 0 := by omega
      rcases Nat.mul_eq_zero.1 this with hx | hx
      · omega
      · exact hx
  | [], _ :: _, h => absurd h (by simp [Le])
  | _ :: _, [], h => absurd h (by simp [Le])

/-- The values from one on, in the order of the counter. -/
theorem visit_spec (m : List Nat) : ∀ (f : Nat) (c : List Nat), Le c m → total m - val c m ≤ f → 0 < val c m →
    (visit m f c).length = total m - val c m ∧ ((visit m f c).map (val · m)) = List.range' (val c m) (total m - val c m) ∧
      ∀ d ∈ visit m f c, Le d m := by
  intro f
  induction f with
  | zero => intro c h hf _; have := val_lt c m h; omega
  | succ f ih =>
    intro c h hf h0
    have hz : ¬ isZero c = true := by rw [isZero_iff c m h]; omega
    have hlt := val_lt c m h
    simp only [visit, hz, Bool.false_eq_true, if_false]
    have hn := next_val c m h
    have hl := next_le c m h
    by_cases hh : val c m + 1 < total m
    · rw [if_pos hh] at hn
      have := ih (next c m) hl (by omega) (by omega)
      obtain ⟨i1, i2, i3⟩ := this
      refine ⟨by simp only [List.length_cons, i1, hn]; omega, ?_, ?_⟩
      · rw [List.map_cons, i2, hn]
        have : total m - val c m = (total m - (val c m + 1)) + 1 := by omega
        rw [this, List.range'_succ]
      · intro d hd
        rcases List.mem_cons.1 hd with rfl | hd
        · exact h
        · exact i3 d hd
    · rw [if_neg hh] at hn
      have hv : visit m f (next c m) = [] := by
        cases f with
        | zero => rfl
        | succ f => simp only [visit, (isZero_iff _ m hl).2 hn, if_true]
      have e1 : total m - val c m = 1 := by omega
      rw [hv, e1]
      refine ⟨rfl, rfl, ?_⟩
      intro d hd
      rcases List.mem_cons.1 hd with rfl | hd
      · exact h
      · simp at hd

theorem zero_le (m : List Nat) : Le (List.replicate m.length 0) m ∧ val (List.replicate m.length 0) m = 0 := by
  induction m with
  | nil => exact ⟨trivial, rfl⟩
  | cons a m ih => exact ⟨⟨Nat.zero_le _, ih.1⟩, by simp only [List.length_cons, List.replicate_succ, val, ih.2]; rfl⟩

/-- The loop visits the values 1, 2, ... up to the last one. -/
theorem visited_vals (m : List Nat) :
    (visited m).map (val · m) = List.range' 1 (total m - 1) ∧ ∀ d ∈ visited m, Le d m := by
  obtain ⟨h, h0⟩ := zero_le m
  have hn := next_val _ m h
  have hl := next_le _ m h
  rw [h0] at hn
  by_cases hh : 0 + 1 < total m
  · rw [if_pos hh] at hn
    have := visit_spec m (total m) _ hl (by omega) (by omega)
    rw [hn] at this
    exact this.2
  · rw [if_neg hh] at hn
    have e : total m = 1 := by have := total_pos m; omega
    have hv : visited m = [] := by
      simp only [visited, e, visit, (isZero_iff _ m hl).2 hn, if_true]
    rw [hv, e]
    exact ⟨rfl, by intro d hd; simp at hd⟩

/-- Exactly the values between zero and the counts, except zero. -/
theorem mem_visited (m c : List Nat) : c ∈ visited m ↔ Le c m ∧ isZero c = false := by
  obtain ⟨h1, h2⟩ := visited_vals m
  constructor
  · intro h
    refine ⟨h2 c h, ?_⟩
    have : val c m ∈ (visited m).map (val · m) := List.mem_map.2 ⟨c, h, rfl⟩
    rw [h1, List.mem_range'_1] at this
    have hz := isZero_iff c m (h2 c h)
    cases hc : isZero c
    · rfl
    · have := hz.1 hc; omega
  · rintro ⟨hl, hz⟩
    have hv : val c m ≠ 0 := fun e => by rw [(isZero_iff c m hl).2 e] at hz; cases hz
    have hlt := val_lt c m hl
    have : val c m ∈ (visited m).map (val · m) := by rw [h1, List.mem_range'_1]; omega
    obtain ⟨d, hd, he⟩ := List.mem_map.1 this
    have := val_inj d c m (h2 d hd) hl he
    exact this ▸ hd

/-- Each once. -/
theorem visited_nodup (m : List Nat) : (visited m).Nodup := by
  have h := (visited_vals m).1
  have : ((visited m).map (val · m)).Nodup := by rw [h]; exact List.nodup_range'
  exact (List.pairwise_map.1 this).imp (fun hab e => hab (by rw [e]))

end Verif.Apps.Hpcg
