import Verif.Coll.Allreduce
import Verif.Coll.TreeProps
import Verif.Coll.Reduction
/-!
Arithmetic of virtual ranks and windows for recursive halving and doubling.
-/
set_option autoImplicit false
namespace SST.Coll.Allreduce
open SST.Coll

/-! ### Partners -/

theorem low_iff (v i : Nat) : low v (2 ^ i) = true ↔ v / 2 ^ i % 2 = 0 := by
  simp [low]

theorem div_add_pow (v i j : Nat) (h : j ≤ i) : (v + 2 ^ i) / 2 ^ j = v / 2 ^ j + 2 ^ (i - j) := by
  have e : 2 ^ i = 2 ^ j * 2 ^ (i - j) := by rw [← Nat.pow_add]; congr 1; omega
  rw [e, Nat.add_mul_div_left _ _ (Nat.two_pow_pos j)]

theorem div_succ (v i : Nat) : v / 2 ^ (i + 1) = v / 2 ^ i / 2 := by
  rw [Nat.pow_succ, Nat.div_div_eq_div_mul]

/-- The higher of two partners is the lower plus the gap. -/
theorem partner_cases (v i : Nat) :
    (low v (2 ^ i) = true ∧ partner v i = v + 2 ^ i ∧ low (partner v i) (2 ^ i) = false) ∨
    (low v (2 ^ i) = false ∧ v = partner v i + 2 ^ i ∧ low (partner v i) (2 ^ i) = true) := by
  have hpos := Nat.two_pow_pos i
  cases h : low v (2 ^ i) with
  | true =>
    left
    have h' := (low_iff v i).mp h
    refine ⟨rfl, by simp [partner, h], ?_⟩
    simp only [partner, h, if_true]
    simp only [low, div_add_pow v i i (Nat.le_refl _), Nat.sub_self, Nat.pow_zero]
    have : ¬ (v / 2 ^ i + 1) % 2 = 0 := by omega
    simpa using this
  | false =>
    right
    have h' : v / 2 ^ i % 2 ≠ 0 := by
      intro e; rw [(low_iff v i).mpr e] at h; simp at h
    have hge : 2 ^ i ≤ v := by
      refine Nat.le_of_not_lt fun hlt => h' ?_
      rw [Nat.div_eq_of_lt hlt]
    have hv : v = partner v i + 2 ^ i := by
      simp only [partner, h, Bool.false_eq_true, if_false]; omega
    refine ⟨rfl, hv, ?_⟩
    have h2 := div_add_pow (partner v i) i i (Nat.le_refl _)
    rw [← hv, Nat.sub_self, Nat.pow_zero] at h2
    rw [low_iff]
    omega

theorem partner_partner (v i : Nat) : partner (partner v i) i = v := by
  rcases partner_cases v i with ⟨_, h2, h3⟩ | ⟨_, h2, h3⟩
  · rw [partner, h3]; simp only [Bool.false_eq_true, if_false]; omega
  · rw [partner, h3]; simp only [if_true]; omega

theorem partner_ne (v i : Nat) : partner v i ≠ v := by
  have := Nat.two_pow_pos i
  rcases partner_cases v i with ⟨_, h2, _⟩ | ⟨_, h2, _⟩ <;> omega

/-- Partners agree on all bits below the gap and on all bits above it. -/
theorem partner_low (v i j : Nat) (h : j < i) : low (partner v i) (2 ^ j) = low v (2 ^ j) := by
  have key : ∀ a, low (a + 2 ^ i) (2 ^ j) = low a (2 ^ j) := by
    intro a
    simp only [low, div_add_pow a i j (by omega)]
    obtain ⟨d, hd⟩ : ∃ d, i - j = d + 1 := ⟨i - j - 1, by omega⟩
    rw [hd, Nat.pow_succ, Nat.add_mul_mod_self_right]
  rcases partner_cases v i with ⟨_, h2, _⟩ | ⟨_, h2, _⟩
  · rw [h2, key]
  · have := key (partner v i)
    rw [← h2] at this
    exact this.symm

theorem partner_div (v i : Nat) : partner v i / 2 ^ (i + 1) = v / 2 ^ (i + 1) := by
  have key : ∀ a, low a (2 ^ i) = true → (a + 2 ^ i) / 2 ^ (i + 1) = a / 2 ^ (i + 1) := by
    intro a ha
    rw [div_succ, div_succ, div_add_pow a i i (Nat.le_refl _), Nat.sub_self, Nat.pow_zero]
    have := (low_iff a i).mp ha
    omega
  rcases partner_cases v i with ⟨h1, h2, _⟩ | ⟨_, h2, h3⟩
  · rw [h2, key v h1]
  · have := key _ h3
    rw [← h2] at this
    exact this.symm

theorem partner_lt (v i K : Nat) (hi : i < K) (hv : v < 2 ^ K) : partner v i < 2 ^ K := by
  have h1 := partner_div v i
  have hdvd : 2 ^ K = 2 ^ (i + 1) * 2 ^ (K - (i + 1)) := by rw [← Nat.pow_add]; congr 1; omega
  have h2 : v / 2 ^ (i + 1) < 2 ^ (K - (i + 1)) := by
    rw [Nat.div_lt_iff_lt_mul (Nat.two_pow_pos _), Nat.mul_comm, ← hdvd]; exact hv
  rw [← h1, Nat.div_lt_iff_lt_mul (Nat.two_pow_pos _), Nat.mul_comm, ← hdvd] at h2
  exact h2

/-! ### Windows -/

theorem win_congr (e v w : Nat) : ∀ i, (∀ j, j < i → low v (2 ^ j) = low w (2 ^ j)) → win e v i = win e w i := by
  intro i
  induction i with
  | zero => intro _; rfl
  | succ i ih =>
    intro h
    simp only [win, ih (fun j hj => h j (by omega)), h i (by omega)]

/-- Partners work on the same window. -/
theorem win_partner (e v i : Nat) : win e (partner v i) i = win e v i :=
  win_congr e _ _ i (fun j hj => partner_low v i j hj)

/-- The parts of a window: what is kept (`win (i+1)`) and what is sent (`snd i`) are disjoint
and cover it. -/
theorem win_split (e v i : Nat) :
    ((win e v (i + 1)).1 = (win e v i).1 ∧ (snd e v i).1 = (win e v (i + 1)).1 + (win e v (i + 1)).2 ∨
     (snd e v i).1 = (win e v i).1 ∧ (win e v (i + 1)).1 = (snd e v i).1 + (snd e v i).2) ∧
    (win e v (i + 1)).2 + (snd e v i).2 = (win e v i).2 := by
  simp only [win, snd]
  generalize win e v i = p
  obtain ⟨off, len⟩ := p
  cases low v (2 ^ i)
  · simp only [Bool.false_eq_true, if_false]
    exact ⟨Or.inr ⟨trivial, trivial⟩, by omega⟩
  · simp only [if_true]
    exact ⟨Or.inl ⟨trivial, by omega⟩, by omega⟩

/-- What one partner sends is what the other keeps. -/
theorem snd_partner (e v i : Nat) : snd e (partner v i) i = win e v (i + 1) := by
  simp only [win, snd, win_partner]
  rcases partner_cases v i with ⟨h1, _, h3⟩ | ⟨h1, _, h3⟩
  · rw [h1, h3]
    generalize win e v i = p
    obtain ⟨off, len⟩ := p
    simp only [Bool.false_eq_true, if_false, if_true, Prod.mk.injEq, true_and]
    omega
  · rw [h1, h3]
    generalize win e v i = p
    obtain ⟨off, len⟩ := p
    simp only [Bool.false_eq_true, if_false, if_true, Prod.mk.injEq]
    omega

theorem win_partner_succ (e v i : Nat) : win e (partner v i) (i + 1) = snd e v i := by
  have := snd_partner e (partner v i) i
  rw [partner_partner] at this
  exact this.symm

/-- `x` is in the window. -/
def InWin (p : Nat × Nat) (x : Nat) : Prop := p.1 ≤ x ∧ x < p.1 + p.2

theorem inWin_split (e v i x : Nat) :
    InWin (win e v i) x ↔ InWin (win e v (i + 1)) x ∨ InWin (snd e v i) x := by
  have := win_split e v i
  unfold InWin
  omega

theorem inWin_disj (e v i x : Nat) (h1 : InWin (win e v (i + 1)) x) (h2 : InWin (snd e v i) x) : False := by
  have := win_split e v i
  unfold InWin at h1 h2
  omega

theorem inWin_mono (e v x : Nat) {i j : Nat} (h : i ≤ j) (hx : InWin (win e v j) x) : InWin (win e v i) x := by
  induction j with
  | zero => have : i = 0 := by omega
            subst this; exact hx
  | succ j ih =>
    by_cases hij : i = j + 1
    · subst hij; exact hx
    · exact ih (by omega) ((inWin_split e v j x).mpr (Or.inl hx))

/-! ### Ranks of virtual ranks -/

/-- The rank of the next virtual rank. -/
theorem real_succ (m : RankMap) (h : m.nproc ≤ m.virtualNproc ∧ m.virtualNproc < 2 * m.nproc) (v : Nat) :
    m.virtualToReal (v + 1) = m.virtualToReal v + 1 ∨
      (v % 2 = 0 ∧ v + 1 < 2 * (m.virtualNproc - m.nproc) ∧ m.virtualToReal (v + 1) = m.virtualToReal v) := by
  obtain ⟨n, N⟩ := m
  simp only [RankMap.virtualToReal]
  simp only at h
  split <;> split <;> omega

theorem real_eq (m : RankMap) (h : m.nproc ≤ m.virtualNproc ∧ m.virtualNproc < 2 * m.nproc) (v w : Nat)
    (hlt : v < w) (he : m.virtualToReal v = m.virtualToReal w) : v % 2 = 0 ∧ w = v + 1 := by
  obtain ⟨n, N⟩ := m
  simp only [RankMap.virtualToReal] at he
  simp only at h
  split at he <;> split at he <;> omega

theorem real_zero (m : RankMap) : m.virtualToReal 0 = 0 := by
  simp only [RankMap.virtualToReal]
  split <;> simp

theorem real_last (m : RankMap) (h : m.nproc ≤ m.virtualNproc ∧ m.virtualNproc < 2 * m.nproc) :
    m.virtualToReal (m.virtualNproc - 1) = m.nproc - 1 := by
  obtain ⟨n, N⟩ := m
  simp only [RankMap.virtualToReal]
  simp only at h
  split <;> omega

theorem shared_iff (n : Nat) (hn : 1 ≤ n) (v q : Nat) (hv : v < (computeTree n).virtualNproc)
    (hq : q < (computeTree n).virtualNproc) :
    shared n v q = true ↔ (rankMap n).virtualToReal q = (rankMap n).virtualToReal v := by
  obtain ⟨h1, h2, _⟩ := C38_virtual_ranks n hn
  have := h2 ((rankMap n).virtualToReal v) q (h1 v hv)
  simp only [shared, List.contains_iff_mem]
  rw [this]
  simp only [rankMap] at *
  constructor
  · exact fun h => h.2
  · exact fun h => ⟨hq, h⟩

/-- Only the first exchange can be with the other virtual rank of the same rank. -/
theorem shared_round (n : Nat) (hn : 1 ≤ n) (v i : Nat)
    (he : (rankMap n).virtualToReal (partner v i) = (rankMap n).virtualToReal v) : i = 0 := by
  have hm := virtualNproc_lt n hn
  have key : ∀ d, 2 ^ i = 1 + d → d = 0 → i = 0 := by
    intro d h hd
    cases i with
    | zero => rfl
    | succ i => rw [Nat.pow_succ] at h; omega
  rcases partner_cases v i with ⟨_, h2, _⟩ | ⟨_, h2, _⟩
  · have hpos := Nat.two_pow_pos i
    have := real_eq (rankMap n) hm v (partner v i) (by omega) he.symm
    exact key (2 ^ i - 1) (by omega) (by omega)
  · have hpos := Nat.two_pow_pos i
    have := real_eq (rankMap n) hm (partner v i) v (by omega) he
    exact key (2 ^ i - 1) (by omega) (by omega)

theorem partner_zero (v : Nat) : partner v 0 = if v % 2 = 0 then v + 1 else v - 1 := by
  simp [partner, low]

/-- Two virtual ranks of one rank are partners in the first exchange. -/
theorem corank (n : Nat) (hn : 1 ≤ n) (v w : Nat) (hne : v ≠ w)
    (he : (rankMap n).virtualToReal v = (rankMap n).virtualToReal w) : partner v 0 = w := by
  have hm := virtualNproc_lt n hn
  rw [partner_zero]
  rcases Nat.lt_or_ge v w with h | h
  · have := real_eq (rankMap n) hm v w h he
    rw [if_pos this.1]; omega
  · have := real_eq (rankMap n) hm w v (by omega) he.symm
    rw [if_neg (by omega)]; omega

/-! ### The ranks covered by a block of virtual ranks -/

/-- First virtual rank of the block of size `2^i` that contains `v`. -/
def blo (v i : Nat) : Nat := v / 2 ^ i * 2 ^ i

/-- Last virtual rank of that block. -/
def bhi (v i : Nat) : Nat := v / 2 ^ i * 2 ^ i + (2 ^ i - 1)

theorem block_split (v i : Nat) :
    (low v (2 ^ i) = true → blo v (i + 1) = blo v i ∧ bhi v (i + 1) = bhi (partner v i) i ∧
      blo (partner v i) i = bhi v i + 1) ∧
    (low v (2 ^ i) = false → blo v (i + 1) = blo (partner v i) i ∧ bhi v (i + 1) = bhi v i ∧
      blo v i = bhi (partner v i) i + 1) := by
  have hpos := Nat.two_pow_pos i
  have hd := div_succ v i
  have hp2 : 2 ^ (i + 1) = 2 * 2 ^ i := by rw [Nat.pow_succ, Nat.mul_comm]
  constructor
  · intro hl
    have h0 := (low_iff v i).mp hl
    have hp : partner v i = v + 2 ^ i := by simp [partner, hl]
    have hd' := div_add_pow v i i (Nat.le_refl _)
    rw [Nat.sub_self, Nat.pow_zero] at hd'
    unfold blo bhi
    rw [hp, hd', hd, hp2]
    generalize hc : v / 2 ^ i = c at *
    obtain ⟨k, rfl⟩ : ∃ k, c = 2 * k := ⟨c / 2, by omega⟩
    have e1 : 2 * k / 2 = k := by omega
    rw [e1]
    have e2 : k * (2 * 2 ^ i) = 2 * k * 2 ^ i := by rw [Nat.mul_left_comm, Nat.mul_assoc]
    have e3 : (2 * k + 1) * 2 ^ i = 2 * k * 2 ^ i + 2 ^ i := by rw [Nat.add_mul]; omega
    omega
  · intro hl
    have hv : v = partner v i + 2 ^ i := by
      rcases partner_cases v i with ⟨h1, _, _⟩ | ⟨_, h2, _⟩
      · rw [h1] at hl; simp at hl
      · exact h2
    have hlp : low (partner v i) (2 ^ i) = true := by
      rcases partner_cases v i with ⟨h1, _, _⟩ | ⟨_, _, h3⟩
      · rw [h1] at hl; simp at hl
      · exact h3
    have h0 := (low_iff _ i).mp hlp
    have hd' := div_add_pow (partner v i) i i (Nat.le_refl _)
    rw [Nat.sub_self, Nat.pow_zero, ← hv] at hd'
    unfold blo bhi
    rw [hd, hd', hp2]
    generalize hc : partner v i / 2 ^ i = c at *
    obtain ⟨k, rfl⟩ : ∃ k, c = 2 * k := ⟨c / 2, by omega⟩
    have e1 : (2 * k + 1) / 2 = k := by omega
    rw [e1]
    have e2 : k * (2 * 2 ^ i) = 2 * k * 2 ^ i := by rw [Nat.mul_left_comm, Nat.mul_assoc]
    have e3 : (2 * k + 1) * 2 ^ i = 2 * k * 2 ^ i + 2 ^ i := by rw [Nat.add_mul]; omega
    omega

variable {V : Type}

/-- The reduction of the contributions of the ranks that own the block of `v`. -/
def blockRed (n : Nat) (op : V → V → V) (d : Nat → V) (v i : Nat) : V :=
  red op d ((rankMap n).virtualToReal (blo v i))
    ((rankMap n).virtualToReal (bhi v i) - (rankMap n).virtualToReal (blo v i))

theorem real_mono (m : RankMap) (v d : Nat) : m.virtualToReal v ≤ m.virtualToReal (v + d) := by
  obtain ⟨n, N⟩ := m
  simp only [RankMap.virtualToReal]
  split <;> split <;> omega

theorem blockRed_zero (n : Nat) (op : V → V → V) (d : Nat → V) (v : Nat) :
    blockRed n op d v 0 = d ((rankMap n).virtualToReal v) := by
  simp [blockRed, blo, bhi, red]

/-- Combining two neighbouring blocks. -/
theorem blockRed_join (n : Nat) (hn : 1 ≤ n) (op : V → V → V)
    (assoc : ∀ a b c, op (op a b) c = op a (op b c)) (d : Nat → V) (v i : Nat)
    (hns : (rankMap n).virtualToReal (partner v i) ≠ (rankMap n).virtualToReal v)
    (hl : low v (2 ^ i) = true) :
    op (blockRed n op d v i) (blockRed n op d (partner v i) i) = blockRed n op d v (i + 1) := by
  have hm := virtualNproc_lt n hn
  obtain ⟨h1, h2, h3⟩ := (block_split v i).1 hl
  unfold blockRed
  rw [h1, h2, h3]
  have hstep : (rankMap n).virtualToReal (bhi v i + 1) = (rankMap n).virtualToReal (bhi v i) + 1 := by
    rcases real_succ (rankMap n) hm (bhi v i) with h | ⟨h4, _, h6⟩
    · exact h
    · exfalso
      -- the next block starts at an odd number only when blocks have one element
      cases i with
      | zero =>
        apply hns
        simp only [bhi, Nat.pow_zero, Nat.div_one, Nat.mul_one, Nat.sub_self, Nat.add_zero] at h6
        have hl0 := (low_iff v 0).mp hl
        simp only [Nat.pow_zero, Nat.div_one] at hl0
        rw [partner_zero, if_pos hl0]
        exact h6
      | succ i =>
        have hp2 : 2 ^ (i + 1) = 2 * 2 ^ i := by rw [Nat.pow_succ, Nat.mul_comm]
        have hpos := Nat.two_pow_pos i
        unfold bhi at h4
        rw [hp2, Nat.mul_left_comm] at h4
        omega
  rw [hstep]
  have hmono1 : (rankMap n).virtualToReal (blo v i) ≤ (rankMap n).virtualToReal (bhi v i) := by
    have := real_mono (rankMap n) (blo v i) (2 ^ i - 1)
    exact this
  have hmono2 : (rankMap n).virtualToReal (bhi v i + 1) ≤ (rankMap n).virtualToReal (bhi (partner v i) i) := by
    rw [← h3]
    exact real_mono (rankMap n) _ (2 ^ i - 1)
  rw [hstep] at hmono2
  generalize (rankMap n).virtualToReal (blo v i) = a at *
  generalize (rankMap n).virtualToReal (bhi v i) = b at *
  generalize (rankMap n).virtualToReal (bhi (partner v i) i) = c at *
  have := red_append op assoc d a (b - a) (c - (b + 1))
  have e1 : a + (b - a) + 1 = b + 1 := by omega
  have e2 : b - a + (c - (b + 1)) + 1 = c - a := by omega
  rw [e1, e2] at this
  exact this

/-- A block whose two halves belong to the same rank. -/
theorem blockRed_shared (n : Nat) (op : V → V → V) (d : Nat → V) (v : Nat)
    (hs : (rankMap n).virtualToReal (partner v 0) = (rankMap n).virtualToReal v) :
    blockRed n op d v 1 = blockRed n op d v 0 := by
  rw [blockRed_zero]
  have hb := block_split v 0
  have e0 : ∀ w, blo w 0 = w := by intro w; simp [blo]
  have e1 : ∀ w, bhi w 0 = w := by intro w; simp [bhi]
  unfold blockRed
  cases hl : low v (2 ^ 0) with
  | true =>
    obtain ⟨h1, h2, _⟩ := hb.1 hl
    rw [Nat.zero_add] at h1 h2
    rw [h1, h2, e0, e1, hs, Nat.sub_self]
    rfl
  | false =>
    obtain ⟨h1, h2, _⟩ := hb.2 hl
    rw [Nat.zero_add] at h1 h2
    rw [h1, h2, e0, e1, hs, Nat.sub_self]
    rfl

/-- The whole block is all ranks. -/
theorem blockRed_all (n : Nat) (hn : 1 ≤ n) (op : V → V → V) (d : Nat → V) (v K : Nat)
    (hK : (computeTree n).virtualNproc = 2 ^ K) (hv : v < 2 ^ K) :
    blockRed n op d v K = red op d 0 (n - 1) := by
  have hm := virtualNproc_lt n hn
  have h0 : v / 2 ^ K = 0 := Nat.div_eq_of_lt hv
  unfold blockRed blo bhi
  rw [h0, Nat.zero_mul, Nat.zero_add, real_zero, ← hK]
  have := real_last (rankMap n) hm
  have e : (rankMap n).virtualToReal ((computeTree n).virtualNproc - 1) = n - 1 := this
  rw [e, Nat.sub_zero]

end SST.Coll.Allreduce
