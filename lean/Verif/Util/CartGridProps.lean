import Verif.Util.CartGrid
/-
C63.
-/
set_option autoImplicit false
namespace SST.Util

/-! ### Factors -/

theorem factor2_spec (f x : Nat) (hx : 0 < x) (hf : x < f) : ∃ fs y, factor2 f x = some (fs, y) ∧ fs.prod * y = x ∧ 0 < y ∧ ∀ a ∈ fs, 2 ≤ a := by
  induction f generalizing x with
  | zero => omega
  | succ f ih =>
    unfold factor2
    split
    · next h =>
      obtain ⟨fs, y, h1, h2, h3, h4⟩ := ih (x / 2) (by omega) (by omega)
      refine ⟨2 :: fs, y, by rw [h1]; rfl, ?_, h3, fun a ha => ?_⟩
      · rw [List.prod_cons, Nat.mul_assoc, h2]; omega
      · rcases List.mem_cons.mp ha with rfl | ha
        · exact Nat.le_refl _
        · exact h4 a ha
    · exact ⟨[], x, rfl, by simp, hx, fun _ h => by cases h⟩

theorem strip_spec (d : Nat) (hd : 2 ≤ d) (f x : Nat) (hx : 0 < x) (hf : x < f) : ∃ fs y, strip d f x = some (fs, y) ∧ fs.prod * y = x ∧ 0 < y ∧ ∀ a ∈ fs, 2 ≤ a := by
  induction f generalizing x with
  | zero => omega
  | succ f ih =>
    unfold strip
    split
    · next h =>
      have hdx : d * (x / d) = x := by have := Nat.div_add_mod x d; omega
      have hpos : 0 < x / d := by
        rcases Nat.eq_zero_or_pos (x / d) with h0 | h0
        · rw [h0, Nat.mul_zero] at hdx; omega
        · exact h0
      have hlt : x / d < x := Nat.div_lt_self hx hd
      obtain ⟨fs, y, h1, h2, h3, h4⟩ := ih (x / d) hpos (by omega)
      refine ⟨d :: fs, y, by rw [h1]; rfl, ?_, h3, fun a ha => ?_⟩
      · rw [List.prod_cons, Nat.mul_assoc, h2, hdx]
      · rcases List.mem_cons.mp ha with rfl | ha
        · exact hd
        · exact h4 a ha
    · exact ⟨[], x, rfl, by simp, hx, fun _ h => by cases h⟩

theorem stripAll_spec (ds : List Nat) (hds : ∀ d ∈ ds, 2 ≤ d) (x : Nat) (hx : 0 < x) : ∃ fs y, stripAll ds x = some (fs, y) ∧ fs.prod * y = x ∧ 0 < y ∧ ∀ a ∈ fs, 2 ≤ a := by
  induction ds generalizing x with
  | nil => exact ⟨[], x, rfl, by simp, hx, fun _ h => by cases h⟩
  | cons d ds ih =>
    obtain ⟨fs, y, h1, h2, h3, h4⟩ := strip_spec d (hds d (List.mem_cons_self ..)) (x + 1) x hx (Nat.lt_succ_self x)
    obtain ⟨gs, z, g1, g2, g3, g4⟩ := ih (fun d hd => hds d (List.mem_cons_of_mem _ hd)) y h3
    refine ⟨fs ++ gs, z, by simp only [stripAll]; rw [h1]; simp only; rw [g1]; rfl, ?_, g3, fun a ha => ?_⟩
    · rw [List.prod_append_nat, Nat.mul_assoc, g2, h2]
    · rcases List.mem_append.mp ha with h | h
      · exact h4 a h
      · exact g4 a h

theorem primefactor_spec (sq n : Nat) (hn : 1 < n) : ∃ fs, primefactor sq n = some fs ∧ fs.prod = n ∧ fs ≠ [] ∧ ∀ a ∈ fs, 2 ≤ a := by
  obtain ⟨tw, x, h1, h2, h3, h4⟩ := factor2_spec (n + 1) n (by omega) (Nat.lt_succ_self n)
  obtain ⟨fs, y, g1, g2, g3, g4⟩ := stripAll_spec (odds sq) (fun d hd => by
    obtain ⟨k, -, rfl⟩ := List.mem_map.mp hd; omega) x h3
  unfold primefactor
  rw [h1]
  simp only
  rw [g1]
  have hprod : (tw ++ fs).prod * y = n := by rw [List.prod_append_nat, Nat.mul_assoc, g2, h2]
  have hge : ∀ a ∈ tw ++ fs, 2 ≤ a := fun a ha => (List.mem_append.mp ha).elim (h4 a) (g4 a)
  by_cases hc : y > 1 ∨ tw ++ fs = []
  · refine ⟨_, rfl, ?_, ?_, ?_⟩
    · rw [if_pos hc, List.prod_append_nat]
      simpa using hprod
    · rw [if_pos hc]; simp
    · rw [if_pos hc]
      intro a ha
      rcases List.mem_append.mp ha with h | h
      · exact hge a h
      · rw [List.mem_singleton.mp h]
        rcases hc with hc | hc
        · exact hc
        · rw [hc] at hprod
          simp at hprod
          omega
  · have hne : tw ++ fs ≠ [] := fun h => hc (.inr h)
    have hy : y = 1 := by
      have : ¬ y > 1 := fun h => hc (.inl h)
      omega
    refine ⟨_, rfl, ?_, ?_, ?_⟩
    · rw [if_neg hc]; rw [hy, Nat.mul_one] at hprod; exact hprod
    · rw [if_neg hc]; exact hne
    · rw [if_neg hc]; exact hge

theorem two_pow_le (fs : List Nat) (h : ∀ a ∈ fs, 2 ≤ a) : 2 ^ fs.length ≤ fs.prod := by
  induction fs with
  | nil => simp
  | cons a fs ih =>
    rw [List.length_cons, Nat.pow_succ, List.prod_cons, Nat.mul_comm]
    exact Nat.mul_le_mul (h a (List.mem_cons_self ..)) (ih fun b hb => h b (List.mem_cons_of_mem _ hb))

/-- **C63**. The factors and their end mark fit the array of 33 integers. -/
theorem C63_fits (sq n : Nat) (hn : 0 < n) (h31 : n < 2^31) {fs : List Nat} (h : primefactor sq n = some fs) : fs.length + 1 ≤ 33 := by
  rcases Nat.lt_or_ge 1 n with h1 | h1
  · obtain ⟨gs, g1, g2, -, g4⟩ := primefactor_spec sq n h1
    rw [h] at g1
    cases g1
    have h2 := two_pow_le fs g4
    rw [g2] at h2
    have : 2 ^ fs.length < 2 ^ 31 := by omega
    have := (Nat.pow_lt_pow_iff_right (by decide : 1 < 2)).mp this
    omega
  · have : n = 1 := by omega
    subst this
    unfold primefactor at h
    rw [show factor2 (1 + 1) 1 = some ([], 1) by decide] at h
    simp only at h
    have hs : ∀ ds : List Nat, (∀ d ∈ ds, 2 ≤ d) → stripAll ds 1 = some ([], 1) := by
      intro ds hds
      induction ds with
      | nil => rfl
      | cons d ds ih =>
        have hd := hds d (List.mem_cons_self ..)
        have h1 : strip d (1 + 1) 1 = some ([], 1) := by
          unfold strip
          rw [if_neg (by rw [Nat.mod_eq_of_lt (by omega)]; decide)]
        simp only [stripAll]
        rw [h1]
        simp only
        rw [ih fun d hd => hds d (List.mem_cons_of_mem _ hd)]
        rfl
    rw [hs (odds sq) (fun d hd => by obtain ⟨k, -, rfl⟩ := List.mem_map.mp hd; omega)] at h
    simp only at h
    have h := Option.some.inj h
    rw [if_pos (.inr rfl)] at h
    rw [← h]
    decide

/-! ### Counters -/

/-- The state of a counter as a number. -/
def val : List Nat → List Nat → Nat
  | m :: ms, c :: cs => c + (m + 1) * val ms cs
  | _, _ => 0

/-- The counts are within their limits. -/
def Within : List Nat → List Nat → Prop
  | [], [] => True
  | m :: ms, c :: cs => c ≤ m ∧ Within ms cs
  | _, _ => False

theorem within_length {ms cs : List Nat} (h : Within ms cs) : cs.length = ms.length := by
  induction ms generalizing cs with
  | nil => cases cs with
    | nil => rfl
    | cons c cs => exact h.elim
  | cons m ms ih => cases cs with
    | nil => exact h.elim
    | cons c cs => rw [List.length_cons, List.length_cons, ih h.2]

theorem within_zero (ms : List Nat) : Within ms (ms.map fun _ => 0) := by
  induction ms with
  | nil => trivial
  | cons m ms ih => exact ⟨Nat.zero_le _, ih⟩

theorem within_next {ms cs : List Nat} (h : Within ms cs) : Within ms (next ms cs) := by
  induction ms generalizing cs with
  | nil => cases cs with
    | nil => trivial
    | cons c cs => exact h.elim
  | cons m ms ih => cases cs with
    | nil => exact h.elim
    | cons c cs =>
      simp only [next]
      split
      · exact ⟨Nat.zero_le _, ih h.2⟩
      · exact ⟨by omega, h.2⟩

theorem states_pos (ms : List Nat) : 0 < states ms := by
  induction ms with
  | nil => decide
  | cons m ms ih => exact Nat.mul_pos (Nat.succ_pos m) ih

theorem val_next {ms cs : List Nat} (h : Within ms cs) :
    val ms (next ms cs) = val ms cs + 1 ∨ (val ms cs + 1 = states ms ∧ val ms (next ms cs) = 0) := by
  induction ms generalizing cs with
  | nil => cases cs with
    | nil => exact .inr ⟨rfl, rfl⟩
    | cons c cs => exact h.elim
  | cons m ms ih => cases cs with
    | nil => exact h.elim
    | cons c cs =>
      simp only [next]
      split
      · next hc =>
        have hcm : c = m := by have := h.1; omega
        subst hcm
        simp only [val, states]
        rcases ih h.2 with h1 | ⟨h1, h2⟩
        · rw [h1, Nat.mul_succ]; omega
        · refine .inr ⟨?_, by rw [h2, Nat.mul_zero]⟩
          rw [← h1, Nat.mul_succ]; omega
      · exact .inl (by simp only [val]; omega)

theorem isZero_iff {ms cs : List Nat} (h : Within ms cs) : isZero cs = true ↔ val ms cs = 0 := by
  induction ms generalizing cs with
  | nil => cases cs with
    | nil => exact ⟨fun _ => rfl, fun _ => rfl⟩
    | cons c cs => exact h.elim
  | cons m ms ih => cases cs with
    | nil => exact h.elim
    | cons c cs =>
      have := ih h.2
      unfold isZero at this ⊢
      rw [List.all_cons, Bool.and_eq_true, this]
      simp only [val]
      constructor
      · intro ⟨h1, h2⟩
        rw [h2, Nat.mul_zero]
        simpa using h1
      · intro h1
        have h2 : c = 0 := by omega
        have h3 : (m + 1) * val ms cs = 0 := by omega
        refine ⟨by simpa using h2, ?_⟩
        rcases Nat.mul_eq_zero.mp h3 with h | h
        · omega
        · exact h

theorem val_lt {ms cs : List Nat} (h : Within ms cs) : val ms cs < states ms := by
  rcases val_next h with h1 | ⟨h1, -⟩
  · induction ms generalizing cs with
    | nil => cases cs with
      | nil => decide
      | cons c cs => exact h.elim
    | cons m ms ih => cases cs with
      | nil => exact h.elim
      | cons c cs =>
        simp only [val, states]
        have h2 : val ms cs < states ms := by
          rcases val_next h.2 with h2 | ⟨h2, -⟩
          · exact ih h.2 h2
          · omega
        have h3 : (m + 1) * (val ms cs + 1) ≤ (m + 1) * states ms := Nat.mul_le_mul_left _ h2
        rw [Nat.mul_succ] at h3
        have := h.1
        omega
  · omega

/-- A loop over the states of a counter ends; what the body preserves holds at the end, and what it
establishes holds if the loop is entered. -/
theorem cycle_spec {α : Type} (ms : List Nat) (body : List Nat → α → Option α) (I J : α → Prop) (hJI : ∀ a, J a → I a)
    (hbody : ∀ cur a, Within ms cur → isZero cur = false → I a → ∃ a', body cur a = some a' ∧ J a')
    (f : Nat) (cur : List Nat) (a : α) (hw : Within ms cur) (hI : I a) (hf : states ms < f + val ms cur ∨ (isZero cur = true ∧ 0 < f)) :
    ∃ a', cycle ms body f cur a = some a' ∧ I a' ∧ (isZero cur = false → J a') := by
  induction f generalizing cur a with
  | zero =>
    have := val_lt hw
    rcases hf with hf | hf <;> omega
  | succ f ih =>
    simp only [cycle]
    cases hz : isZero cur with
    | true => exact ⟨a, by rw [if_pos rfl], hI, fun h => by cases h⟩
    | false =>
      rw [if_neg (by decide)]
      obtain ⟨a1, h1, h2⟩ := hbody cur a hw hz hI
      rw [h1]
      simp only
      have hf : states ms < f + 1 + val ms cur := by
        rcases hf with hf | hf
        · exact hf
        · rw [hz] at hf; cases hf.1
      have hwn := within_next hw
      have hfz : 0 < f := by have := val_lt hw; omega
      obtain ⟨a2, g1, g2, g3⟩ := ih (next ms cur) a1 hwn (hJI a1 h2) (by
        rcases val_next hw with hv | ⟨-, hv⟩
        · exact .inl (by omega)
        · exact .inr ⟨(isZero_iff hwn).mpr hv, hfz⟩)
      refine ⟨a2, g1, g2, fun _ => ?_⟩
      cases hzn : isZero (next ms cur) with
      | false => exact g3 hzn
      | true =>
        obtain ⟨f', rfl⟩ : ∃ f', f = f' + 1 := ⟨f - 1, by omega⟩
        simp only [cycle] at g1
        rw [hzn, if_pos rfl] at g1
        cases g1
        exact h2

/-- The loop as it is started: from the state after zero. -/
theorem cycle_start {α : Type} (ms : List Nat) (body : List Nat → α → Option α) (I J : α → Prop) (hJI : ∀ a, J a → I a)
    (hbody : ∀ cur a, Within ms cur → isZero cur = false → I a → ∃ a', body cur a = some a' ∧ J a') (a : α) (hI : I a) :
    ∃ a', cycle ms body (states ms) (next ms (ms.map fun _ => 0)) a = some a' ∧ I a' ∧ (1 < states ms → J a') := by
  have hz := within_zero ms
  have hw := within_next hz
  have hv0 : val ms (ms.map fun _ => 0) = 0 := (isZero_iff hz).mp (by unfold isZero; rw [List.all_map]; exact List.all_eq_true.mpr fun _ _ => rfl)
  have hp := states_pos ms
  obtain ⟨a', h1, h2, h3⟩ := cycle_spec ms body I J hJI hbody (states ms) _ a hw hI (by
    rcases val_next hz with hv | ⟨-, hv⟩
    · exact .inl (by omega)
    · exact .inr ⟨(isZero_iff hw).mpr hv, hp⟩)
  refine ⟨a', h1, h2, fun hlt => h3 ?_⟩
  rcases val_next hz with hv | ⟨hv, -⟩
  · rw [hv0] at hv
    cases hzz : isZero (next ms (ms.map fun _ => 0)) with
    | false => rfl
    | true => rw [(isZero_iff hw).mp hzz] at hv; omega
  · omega

/-! ### Products -/

/-- The product of the powers. -/
def pw : List Nat → List Nat → Nat
  | b :: bs, c :: cs => b ^ c * pw bs cs
  | _, _ => 1

theorem foldl_pw (bs cs : List Nat) (x : Nat) : (bs.zip cs).foldl (fun x p => x * p.1 ^ p.2) x = x * pw bs cs := by
  induction bs generalizing cs x with
  | nil => simp [pw]
  | cons b bs ih => cases cs with
    | nil => simp [pw]
    | cons c cs => rw [List.zip_cons_cons, List.foldl_cons, ih]; simp only [pw]; rw [Nat.mul_assoc]

theorem product_eq (bs cs : List Nat) (h : isZero cs = false) : product bs cs = pw bs cs := by
  unfold product
  rw [foldl_pw, h, if_neg (by decide), Nat.one_mul, Nat.mul_one]

theorem pw_pos (bs cs : List Nat) (h : ∀ b ∈ bs, 2 ≤ b) : 0 < pw bs cs := by
  induction bs generalizing cs with
  | nil => simp [pw]
  | cons b bs ih => cases cs with
    | nil => simp [pw]
    | cons c cs =>
      have := h b (List.mem_cons_self ..)
      exact Nat.mul_pos (Nat.pow_pos (by omega)) (ih cs fun b hb => h b (List.mem_cons_of_mem _ hb))

theorem pw_ge_two (bs cs : List Nat) (hl : cs.length = bs.length) (h : ∀ b ∈ bs, 2 ≤ b) (hz : isZero cs = false) : 2 ≤ pw bs cs := by
  induction bs generalizing cs with
  | nil => cases cs with
    | nil => cases hz
    | cons c cs => cases hl
  | cons b bs ih => cases cs with
    | nil => cases hl
    | cons c cs =>
      have hb := h b (List.mem_cons_self ..)
      have hp := pw_pos bs cs (fun b hb => h b (List.mem_cons_of_mem _ hb))
      simp only [pw]
      by_cases hc : c = 0
      · subst hc
        rw [Nat.pow_zero, Nat.one_mul]
        refine ih cs (by simpa using hl) (fun b hb => h b (List.mem_cons_of_mem _ hb)) ?_
        unfold isZero at hz ⊢
        rw [List.all_cons] at hz
        simpa using hz
      · obtain ⟨k, rfl⟩ : ∃ k, c = k + 1 := ⟨c - 1, by omega⟩
        have h1 : 0 < b ^ k := Nat.pow_pos (by omega)
        have h2 : 2 ≤ b ^ (k + 1) := by
          rw [Nat.pow_succ]
          calc 2 = 1 * 2 := rfl
            _ ≤ b ^ k * b := Nat.mul_le_mul h1 hb
        calc 2 = 2 * 1 := rfl
          _ ≤ _ := Nat.mul_le_mul h2 hp

theorem pw_sub (bs ms cs : List Nat) (h : Within ms cs) (hl : ms.length = bs.length) : pw bs cs * pw bs (List.zipWith (· - ·) ms cs) = pw bs ms := by
  induction bs generalizing ms cs with
  | nil => cases ms with
    | nil => cases cs with
      | nil => rfl
      | cons c cs => exact h.elim
    | cons m ms => cases hl
  | cons b bs ih => cases ms with
    | nil => cases hl
    | cons m ms => cases cs with
      | nil => exact h.elim
      | cons c cs =>
        rw [List.zipWith_cons_cons]
        simp only [pw]
        rw [← ih ms cs h.2 (by simpa using hl), show m = c + (m - c) by have := h.1; omega, Nat.pow_add, Nat.add_sub_cancel_left]
        ac_rfl

theorem runs_pw (fs : List Nat) : pw ((runs fs).map (·.1)) ((runs fs).map (·.2)) = fs.prod := by
  induction fs with
  | nil => rfl
  | cons x fs ih =>
    simp only [runs]
    split
    · next y c rest hr =>
      rw [hr] at ih
      simp only [List.map_cons, pw] at ih
      rw [List.prod_cons, ← ih]
      split
      · next hxy =>
        subst hxy
        simp only [List.map_cons, pw]
        rw [Nat.pow_succ]
        ac_rfl
      · simp only [List.map_cons, pw, Nat.pow_one]
    · next hr =>
      rw [hr] at ih
      rw [List.prod_cons, ← ih]
      simp [pw]

theorem runs_base (fs : List Nat) : ∀ p ∈ runs fs, p.1 ∈ fs ∧ 1 ≤ p.2 := by
  induction fs with
  | nil => intro p h; cases h
  | cons x fs ih =>
    intro p hp
    simp only [runs] at hp
    split at hp
    · next y c rest hr =>
      rw [hr] at ih
      have hy := ih (y, c) (List.mem_cons_self ..)
      split at hp
      · rcases List.mem_cons.mp hp with rfl | hp
        · exact ⟨List.mem_cons_of_mem _ hy.1, Nat.le_add_left 1 c⟩
        · have := ih p (List.mem_cons_of_mem _ hp)
          exact ⟨List.mem_cons_of_mem _ this.1, this.2⟩
      · rcases List.mem_cons.mp hp with rfl | hp
        · exact ⟨List.mem_cons_self .., Nat.le_refl _⟩
        · have := ih p hp
          exact ⟨List.mem_cons_of_mem _ this.1, this.2⟩
    · rw [List.mem_singleton] at hp
      subst hp
      exact ⟨List.mem_cons_self .., Nat.le_refl _⟩

theorem runs_sum (fs : List Nat) : ((runs fs).map (·.2)).sum = fs.length := by
  induction fs with
  | nil => rfl
  | cons x fs ih =>
    simp only [runs]
    split
    · next y c rest hr =>
      rw [hr] at ih
      simp only [List.map_cons, List.sum_cons] at ih
      rw [List.length_cons, ← ih]
      split
      · simp only [List.map_cons, List.sum_cons]; omega
      · simp only [List.map_cons, List.sum_cons]; omega
    · next hr =>
      rw [hr] at ih
      rw [List.length_cons, ← ih]
      rfl

theorem states_gt (ms : List Nat) : ms.sum < states ms := by
  induction ms with
  | nil => decide
  | cons m ms ih =>
    rw [List.sum_cons]
    simp only [states]
    have h1 : (m + 1) * (ms.sum + 1) ≤ (m + 1) * states ms := Nat.mul_le_mul_left _ ih
    rw [Nat.mul_succ, Nat.succ_mul] at h1
    have : 0 ≤ m * ms.sum := Nat.zero_le _
    omega

theorem sub_sum (ms cs : List Nat) (h : Within ms cs) : (List.zipWith (· - ·) ms cs).sum + cs.sum = ms.sum := by
  induction ms generalizing cs with
  | nil => cases cs with
    | nil => rfl
    | cons c cs => exact h.elim
  | cons m ms ih => cases cs with
    | nil => exact h.elim
    | cons c cs =>
      rw [List.zipWith_cons_cons, List.sum_cons, List.sum_cons, List.sum_cons]
      have := ih cs h.2
      have := h.1
      omega

/-! ### The search -/

/-- A grid of `n` processes. -/
def Grid (n : Nat) (g : Nat × Nat × Nat) : Prop := g.1 * g.2.1 * g.2.2 = n ∧ 0 < g.1 ∧ 0 < g.2.1 ∧ 0 < g.2.2

/-- What holds during the search. -/
def Ok (n : Nat) (b : Best) : Prop := (∀ g, b.2 = some g → Grid n g) ∧ (b.2 = none → b.1 = 2 * n + 1)

theorem area_le (a b c : Nat) (ha : 2 ≤ a) (hb : 2 ≤ b) (hc : 0 < c) : a * b + b * c + a * c ≤ 2 * (a * b * c) := by
  have h1 : a * b * 1 ≤ a * b * c := Nat.mul_le_mul_left _ hc
  have h2 : 2 * (b * c) ≤ a * (b * c) := Nat.mul_le_mul_right _ ha
  have h3 : 2 * (a * c) ≤ b * (a * c) := Nat.mul_le_mul_right _ hb
  have e1 : a * (b * c) = a * b * c := (Nat.mul_assoc a b c).symm
  have e2 : b * (a * c) = a * b * c := by ac_rfl
  omega

theorem try3_ok {n : Nat} {bs ms c1 c2 : List Nat} (hbs : ∀ b ∈ bs, 2 ≤ b) (hl : ms.length = bs.length) (hn : pw bs ms = n)
    (h1 : Within ms c1) (hz1 : isZero c1 = false) (h2 : Within (List.zipWith (· - ·) ms c1) c2) (hz2 : isZero c2 = false) (b : Best) (hb : Ok n b) :
    Ok n (try3 n bs c1 c2 b) ∧ (try3 n bs c1 c2 b).2 ≠ none := by
  have hl1 := within_length h1
  have hl2 := within_length h2
  have hlz : (List.zipWith (· - ·) ms c1).length = bs.length := by rw [List.length_zipWith, hl1, Nat.min_self, hl]
  have e1 := pw_sub bs ms c1 h1 hl
  have e2 := pw_sub bs _ c2 h2 hlz
  have g1 := pw_ge_two bs c1 (hl1.trans hl) hbs hz1
  have g2 := pw_ge_two bs c2 (hl2.trans hlz) hbs hz2
  have g3 := pw_pos bs (List.zipWith (· - ·) (List.zipWith (· - ·) ms c1) c2) hbs
  rw [← e2, hn] at e1
  unfold try3
  rw [product_eq bs c1 hz1, product_eq bs c2 hz2]
  generalize pw bs c1 = a at *
  generalize pw bs c2 = c at *
  generalize pw bs (List.zipWith (· - ·) (List.zipWith (· - ·) ms c1) c2) = d at *
  have hd : n / a / c = d := by
    rw [← e1, Nat.mul_div_cancel_left _ (by omega), Nat.mul_div_cancel_left _ (by omega)]
  simp only
  rw [hd]
  have harea := area_le a c d g1 g2 g3
  have hacd : a * c * d = n := by rw [Nat.mul_assoc]; exact e1
  rw [hacd] at harea
  split
  · refine ⟨⟨fun g hg => ?_, fun h => by cases h⟩, fun h => by cases h⟩
    have hg := Option.some.inj hg
    rw [← hg]
    exact ⟨hacd, by show 0 < a; omega, by show 0 < c; omega, g3⟩
  · next hlt =>
    refine ⟨hb, fun h => ?_⟩
    have := hb.2 h
    omega

theorem tryAll_ok {n : Nat} {bs ms c1 : List Nat} (hbs : ∀ b ∈ bs, 2 ≤ b) (hl : ms.length = bs.length) (hn : pw bs ms = n)
    (h1 : Within ms c1) (hz1 : isZero c1 = false) (b : Best) (hb : Ok n b) :
    ∃ b', tryAll n bs ms c1 b = some b' ∧ Ok n b' ∧ (1 < states (List.zipWith (· - ·) ms c1) ∨ b.2 ≠ none → b'.2 ≠ none) := by
  by_cases hnone : b.2 = none
  · obtain ⟨b', h2, h3, h4⟩ := cycle_start (List.zipWith (· - ·) ms c1) (fun c2 b => some (try3 n bs c1 c2 b)) (Ok n) (fun b => Ok n b ∧ b.2 ≠ none) (fun _ h => h.1)
      (fun cur a hw hz hI => ⟨_, rfl, try3_ok hbs hl hn h1 hz1 hw hz a hI⟩) b hb
    exact ⟨b', h2, h3, fun h => (h4 (h.resolve_right (fun h => h hnone))).2⟩
  · obtain ⟨b', h2, h3, -⟩ := cycle_start (List.zipWith (· - ·) ms c1) (fun c2 b => some (try3 n bs c1 c2 b)) (fun b => Ok n b ∧ b.2 ≠ none) (fun b => Ok n b ∧ b.2 ≠ none) (fun _ h => h)
      (fun cur a hw hz hI => ⟨_, rfl, try3_ok hbs hl hn h1 hz1 hw hz a hI.1⟩) b ⟨hb, hnone⟩
    exact ⟨b', h2, h3.1, fun _ => h3.2⟩

theorem zero_sum (ms : List Nat) : (ms.map fun _ => 0).sum = 0 := by
  induction ms with
  | nil => rfl
  | cons m ms ih => rw [List.map_cons, List.sum_cons, ih]

theorem search_ok {n : Nat} {bs ms : List Nat} (hbs : ∀ b ∈ bs, 2 ≤ b) (hl : ms.length = bs.length) (hn : pw bs ms = n)
    (hms : ∀ m ∈ ms, 1 ≤ m) (hsum : 2 ≤ ms.sum) :
    ∃ b g, cycle ms (tryAll n bs ms) (states ms) (next ms (ms.map fun _ => 0)) (2 * n + 1, none) = some b ∧ b.2 = some g ∧ Grid n g := by
  cases ms with
  | nil => exact absurd hsum (by decide)
  | cons m ms =>
    have hm := hms m (List.mem_cons_self ..)
    have hc : next (m :: ms) ((m :: ms).map fun _ => 0) = 1 :: ms.map (fun _ => 0) := by
      rw [List.map_cons]
      simp only [next]
      rw [if_neg (by omega)]
    rw [hc]
    have hw : Within (m :: ms) (1 :: ms.map fun _ => 0) := ⟨hm, within_zero ms⟩
    have hz : isZero (1 :: ms.map fun _ => 0) = false := rfl
    obtain ⟨b1, h1, h2, h3⟩ := tryAll_ok hbs hl hn hw hz (2 * n + 1, none) ⟨(fun g hg => nomatch hg), fun _ => rfl⟩
    have hne := h3 (.inl (by
      have e := sub_sum (m :: ms) _ hw
      rw [List.sum_cons (a := 1), zero_sum] at e
      have := states_gt (List.zipWith (· - ·) (m :: ms) (1 :: ms.map fun _ => 0))
      omega))
    have hgt := states_gt (m :: ms)
    obtain ⟨f, hf⟩ : ∃ f, states (m :: ms) = f + 1 := ⟨states (m :: ms) - 1, by omega⟩
    have hv1 : val (m :: ms) (1 :: ms.map fun _ => 0) = 1 := by
      simp only [val]
      rw [(isZero_iff (within_zero ms)).mp (by unfold isZero; rw [List.all_map]; exact List.all_eq_true.mpr fun _ _ => rfl), Nat.mul_zero]
    have hwn := within_next hw
    obtain ⟨b, g1, g2, -⟩ := cycle_spec (m :: ms) (tryAll n bs (m :: ms)) (fun b => Ok n b ∧ b.2 ≠ none) (fun b => Ok n b ∧ b.2 ≠ none) (fun _ h => h)
      (fun cur a hw hz hI => by
        obtain ⟨b', e1, e2, e3⟩ := tryAll_ok hbs hl hn hw hz a hI.1
        exact ⟨b', e1, e2, e3 (.inr hI.2)⟩) f _ b1 hwn ⟨h2, hne⟩ (by
      rcases val_next hw with hv | ⟨-, hv⟩
      · exact .inl (by omega)
      · exact .inr ⟨(isZero_iff hwn).mpr hv, by omega⟩)
    obtain ⟨g, hg⟩ := Option.ne_none_iff_exists'.mp g2.2
    refine ⟨b, g, ?_, hg, g2.1.1 g hg⟩
    rw [hf]
    simp only [cycle]
    rw [hz, if_neg (by decide), h1]
    exact g1

/-- **C63**. For every number of processes the function ends and sets three positive extents whose product
is that number, whatever the rounding of the square root. -/
theorem C63_grid (sq n : Nat) (hn : 0 < n) : ∃ x y z, genCartGrid sq n = some (x, y, z) ∧ x * y * z = n ∧ 0 < x ∧ 0 < y ∧ 0 < z := by
  rcases Nat.lt_or_ge 1 n with h1 | h1
  · obtain ⟨fs, e1, e2, e3, e4⟩ := primefactor_spec sq n h1
    have h2 : ∀ a ∈ fs, 0 < a := fun a ha => by have := e4 a ha; omega
    unfold genCartGrid
    rw [e1]
    simp only
    rw [if_neg (by omega)]
    match fs, e2, e3, e4, h2 with
    | [], _, e3, _, _ => exact absurd rfl e3
    | [a], _, _, _, _ => exact ⟨n, 1, 1, rfl, by rw [Nat.mul_one, Nat.mul_one], hn, by decide, by decide⟩
    | [a, b], e2, _, _, h2 => exact ⟨a, b, 1, rfl, by simpa using e2, h2 a (by simp), h2 b (by simp), by decide⟩
    | [a, b, c], e2, _, _, h2 => exact ⟨a, b, c, rfl, by simpa [Nat.mul_assoc] using e2, h2 a (by simp), h2 b (by simp), h2 c (by simp)⟩
    | a :: b :: c :: d :: fs, e2, _, e4, _ =>
      obtain ⟨r, g, g1, g2, g3⟩ := search_ok (n := n) (bs := (runs (a :: b :: c :: d :: fs)).map (·.1)) (ms := (runs (a :: b :: c :: d :: fs)).map (·.2))
        (fun x hx => by obtain ⟨p, hp, rfl⟩ := List.mem_map.mp hx; exact e4 _ (runs_base _ p hp).1)
        (by rw [List.length_map, List.length_map]) (by rw [runs_pw, e2])
        (fun x hx => by obtain ⟨p, hp, rfl⟩ := List.mem_map.mp hx; exact (runs_base _ p hp).2)
        (by rw [runs_sum]; simp only [List.length_cons]; omega)
      refine ⟨g.1, g.2.1, g.2.2, ?_, g3⟩
      simp only
      rw [g1]
      exact g2
  · have : n = 1 := by omega
    subst this
    refine ⟨1, 1, 1, ?_, rfl, by decide, by decide, by decide⟩
    obtain ⟨fs, y, g1, g2, g3, g4⟩ := stripAll_spec (odds sq) (fun d hd => by
      obtain ⟨k, -, rfl⟩ := List.mem_map.mp hd; omega) 1 (by decide)
    unfold genCartGrid primefactor
    rw [show factor2 (1 + 1) 1 = some ([], 1) by decide]
    simp only
    rw [g1]
    rfl

example : genCartGrid 5 24 = some (2, 4, 3) ∧ genCartGrid 7 36 = some (4, 3, 3) := by decide

end SST.Util
