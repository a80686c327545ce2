import Verif.Coll.Scatter
import Verif.Coll.GatherProps
/-!
C32, scatter: right for root 0 and odd roots with three or more ranks; with two ranks, or an
even root other than 0, some rank never gets its block.
-/
set_option autoImplicit false
set_option linter.unusedSectionVars false
namespace SST.Coll.Scatter
open SST.Coll

variable {V : Type}

/-- Every rank's result is its own block of the root's buffer. -/
def Scattered (n e : Nat) (data : Nat → V) (result : Nat → Nat → V) : Prop :=
  ∀ r y, r < n → y < e → result r y = data (r * e + y)

theorem even_div (me j : Nat) : (me % 2 ^ j = 0 ∧ (me / 2 ^ j) % 2 = 0) ↔ me % 2 ^ (j + 1) = 0 := by
  have hp := Nat.two_pow_pos j
  constructor
  · rintro ⟨h1, h2⟩
    obtain ⟨c, rfl⟩ := Nat.dvd_of_mod_eq_zero h1
    rw [Nat.mul_div_cancel_left _ hp] at h2
    obtain ⟨d, rfl⟩ : ∃ d, c = 2 * d := ⟨c / 2, by omega⟩
    rw [← Nat.mul_assoc, ← Nat.pow_succ]
    exact Nat.mul_mod_right _ _
  · intro h
    refine ⟨Gather.mod_succ me j h, ?_⟩
    obtain ⟨c, rfl⟩ := Nat.dvd_of_mod_eq_zero h
    rw [Nat.pow_succ, Nat.mul_assoc, Nat.mul_div_cancel_left _ hp]
    omega

section
variable (n root e : Nat)

variable (hn : 2 ≤ n)
include hn

theorem mid_spec : ∃ M, (computeTree n).log2nproc = M + 1 ∧ mid n = 2 ^ M ∧ 2 ^ M < n ∧ n ≤ 2 ^ M + 2 ^ M ∧
    ∀ k, gap n k = if k < M then 2 ^ (M - 1 - k) else 0 := by
  obtain ⟨M, h1, h2, h3, h4⟩ := Gather.mid_spec n hn
  refine ⟨M, h1, h2, h3, h4, ?_⟩
  intro k
  have : mid n = 2 ^ M := h2
  unfold gap
  rw [this]
  split
  · rename_i hk
    obtain ⟨d, rfl⟩ : ∃ d, M = d + k + 1 := ⟨M - 1 - k, by omega⟩
    rw [Nat.pow_succ, Nat.mul_div_cancel _ (by omega), Nat.pow_add, Nat.mul_div_cancel _ (Nat.two_pow_pos k)]
    congr 1
    omega
  · rename_i hk
    cases M with
    | zero => simp
    | succ M =>
      rw [Nat.pow_succ, Nat.mul_div_cancel _ (by omega)]
      exact Nat.div_eq_of_lt (Nat.pow_lt_pow_right (by omega) (by omega))

/-- Iteration `k` of the loop in terms of `j = M - 1 - k`. -/
theorem treeSend_some {M p k q : Nat} {x : Xfer}
    (hg : ∀ k, gap n k = if k < M then 2 ^ (M - 1 - k) else 0)
    (h : treeSend n root e p k q = some x) :
    k < M ∧ p % 2 ^ (M - 1 - k + 1) = 0 ∧ q = p + 2 ^ (M - 1 - k) ∧ q < n ∧
    x = { buf := sendBuf root p, off := 2 ^ (M - 1 - k) * e, len := min (n - q) (2 ^ (M - 1 - k)) * e } := by
  by_cases hk : k < M
  · simp only [treeSend, hg k, hk, if_true] at h
    split at h
    · rename_i hc
      simp only [Option.some.injEq] at h
      exact ⟨hk, (even_div _ _).mp ⟨hc.2.1, hc.2.2.1⟩, hc.2.2.2.1, hc.2.2.2.2, h.symm⟩
    · simp at h
  · simp [treeSend, hg k, hk] at h

theorem treeRecv_some {M p k q : Nat} {x : Xfer}
    (hg : ∀ k, gap n k = if k < M then 2 ^ (M - 1 - k) else 0)
    (h : treeRecv n e p k q = some x) :
    k < M ∧ q % 2 ^ (M - 1 - k + 1) = 0 ∧ p = q + 2 ^ (M - 1 - k) ∧ p % 2 ^ (M - 1 - k + 1) ≠ 0 ∧
    x = { buf := if 2 ^ (M - 1 - k) ≠ 1 then 1 else 0, off := 0, len := min (n - p) (2 ^ (M - 1 - k)) * e } := by
  by_cases hk : k < M
  · simp only [treeRecv, hg k, hk, if_true] at h
    split at h
    · rename_i hc
      simp only [Option.some.injEq] at h
      have hne : p % 2 ^ (M - 1 - k + 1) ≠ 0 := fun hh => hc.2.2.1 ((even_div _ _).mpr hh).2
      obtain ⟨g1, g2⟩ := Gather.sender_partner p _ hc.2.1 hne
      rw [← hc.2.2.2] at g2
      exact ⟨hk, g2, by omega, hne, h.symm⟩
    · simp at h
  · simp [treeRecv, hg k, hk] at h

theorem treeSend_eq {M p k : Nat}
    (hg : ∀ k, gap n k = if k < M then 2 ^ (M - 1 - k) else 0) (hk : k < M)
    (h2 : p % 2 ^ (M - 1 - k + 1) = 0) (h3 : p + 2 ^ (M - 1 - k) < n) :
    treeSend n root e p k (p + 2 ^ (M - 1 - k)) =
      some { buf := sendBuf root p, off := 2 ^ (M - 1 - k) * e,
             len := min (n - (p + 2 ^ (M - 1 - k))) (2 ^ (M - 1 - k)) * e } := by
  simp only [treeSend, hg k, hk, if_true]
  obtain ⟨a, b⟩ := (even_div _ _).mpr h2
  rw [if_pos ⟨Nat.two_pow_pos _, a, b, trivial, h3⟩]

theorem treeRecv_eq {M p k : Nat}
    (hg : ∀ k, gap n k = if k < M then 2 ^ (M - 1 - k) else 0) (hk : k < M)
    (h2 : p % 2 ^ (M - 1 - k + 1) = 0) :
    treeRecv n e (p + 2 ^ (M - 1 - k)) k p =
      some { buf := if 2 ^ (M - 1 - k) ≠ 1 then 1 else 0, off := 0,
             len := min (n - (p + 2 ^ (M - 1 - k))) (2 ^ (M - 1 - k)) * e } := by
  simp only [treeRecv, hg k, hk, if_true]
  obtain ⟨a, b⟩ := Gather.recver_partner p _ h2
  rw [if_pos ⟨Nat.two_pow_pos _, a, fun hh => b ((even_div _ _).mp ⟨a, hh⟩), by omega⟩]

variable (hr : root < n)
include hr

/-- The sends of the model, by case. -/
theorem send_cases {p i q : Nat} {x : Xfer} (h : (scatter (V := V) n root e).send p i q = some x) :
    (p = n ∧ i = 1 ∧ root ≠ 0 ∧ q = 0 ∧ x = { buf := 2, off := 0, len := mid n * e }) ∨
    (p = root ∧ i = 0 ∧ root ≠ mid n ∧ q = mid n ∧
      x = { buf := 2, off := mid n * e, len := min (n - mid n) (mid n) * e }) ∨
    (p ≠ n ∧ q ≠ n ∧ 2 ≤ i ∧ treeSend n root e p (i - 2) q = some x) := by
  simp only [scatter] at h
  split at h
  · rename_i hp
    split at h
    · rename_i hc
      simp only [Option.some.injEq] at h
      exact Or.inl ⟨hp, hc.1, hc.2.1, hc.2.2, h.symm⟩
    · simp at h
  · rename_i hp
    split at h
    · simp at h
    · rename_i hq
      split at h
      · rename_i hi
        split at h
        · rename_i hc
          simp only [Option.some.injEq] at h
          exact Or.inr (Or.inl ⟨hc.2.1, hi, hc.1, hc.2.2, h.symm⟩)
        · simp at h
      · split at h
        · rename_i hi2
          exact Or.inr (Or.inr ⟨hp, hq, hi2, h⟩)
        · simp at h

theorem recv_cases {p i q : Nat} {x : Xfer} (h : (scatter (V := V) n root e).recv p i q = some x) :
    (q = n ∧ i = 1 ∧ root ≠ 0 ∧ p = 0 ∧ x = { buf := 1, off := 0, len := mid n * e }) ∨
    (q = root ∧ i = 0 ∧ root ≠ mid n ∧ p = mid n ∧
      x = { buf := 1, off := 0, len := min (n - mid n) (mid n) * e }) ∨
    (p ≠ n ∧ q ≠ n ∧ 2 ≤ i ∧ treeRecv n e p (i - 2) q = some x) := by
  simp only [scatter] at h
  split at h
  · rename_i hp
    split at h
    · rename_i hc
      simp only [Option.some.injEq] at h
      exact Or.inl ⟨hp, hc.1, hc.2.1, hc.2.2, h.symm⟩
    · simp at h
  · rename_i hp
    split at h
    · simp at h
    · rename_i hq
      split at h
      · rename_i hi
        split at h
        · rename_i hc
          simp only [Option.some.injEq] at h
          exact Or.inr (Or.inl ⟨hc.2.1, hi, hc.1, hc.2.2, h.symm⟩)
        · simp at h
      · split at h
        · rename_i hi2
          exact Or.inr (Or.inr ⟨hq, hp, hi2, h⟩)
        · simp at h

theorem loc_some {p i : Nat} {o : LocalOp V} (h : (scatter (V := V) n root e).loc p i = some o) :
    p ≠ n ∧ i = (computeTree n).log2nproc + 1 ∧ p ≠ root ∧ p % 2 = 0 ∧ o = copyOut e := by
  simp only [scatter] at h
  split at h
  · rename_i hc
    simp only [Option.some.injEq] at h
    exact ⟨hc.1, hc.2.1, hc.2.2.1, hc.2.2.2, h.symm⟩
  · simp at h

theorem send_tree (p i q : Nat) (hp : p ≠ n) (hq : q ≠ n) (hi : 2 ≤ i) :
    (scatter (V := V) n root e).send p i q = treeSend n root e p (i - 2) q := by
  simp only [scatter]
  rw [if_neg hp, if_neg hq, if_neg (by omega), if_pos hi]

theorem recv_tree (p i q : Nat) (hp : p ≠ n) (hq : q ≠ n) (hi : 2 ≤ i) :
    (scatter (V := V) n root e).recv p i q = treeRecv n e p (i - 2) q := by
  simp only [scatter]
  rw [if_neg hq, if_neg hp, if_neg (by omega), if_pos hi]

/-- Only receives and the final copy write; never the send buffer. -/
theorem writes_cases {a : Act} {l : Loc} (ha : a ∈ (scatter (V := V) n root e).acts)
    (hw : (scatter (V := V) n root e).writesB a l = true) :
    a.p ≠ n ∧ l.1 = a.p ∧ l.2.1 ≠ 2 ∧
    ((a.k = .recv ∧ ∃ y, (scatter (V := V) n root e).recv a.p a.i a.q = some y ∧ l.2.1 = y.buf ∧ l.2.2 < y.off + y.len) ∨
     (a.k = .loc ∧ ∃ o, (scatter (V := V) n root e).loc a.p a.i = some o)) := by
  obtain ⟨M, hK, hm, hlt, hle, hg⟩ := mid_spec n hn
  obtain ⟨p, i, k, q⟩ := a
  cases k with
  | send => simp [Rounds.writesB] at hw
  | loc =>
    simp only [Rounds.writesB] at hw
    cases ho : (scatter (V := V) n root e).loc p i with
    | none => rw [ho] at hw; simp at hw
    | some o =>
      rw [ho] at hw
      obtain ⟨h1, _, _, _, h5⟩ := loc_some n root e hn hr ho
      simp only [Bool.and_eq_true, beq_iff_eq] at hw
      have hl1 : l.1 = p := by rw [hw.1]; simp only [scatter]; rw [if_neg h1]
      have hw2 := hw.2
      rw [h5] at hw2
      simp only [copyOut, Bool.and_eq_true, beq_iff_eq] at hw2
      exact ⟨h1, hl1, by omega, Or.inr ⟨rfl, o, rfl⟩⟩
  | recv =>
    simp only [Rounds.writesB] at hw
    cases hy : (scatter (V := V) n root e).recv p i q with
    | none => rw [hy] at hw; simp at hw
    | some y =>
      rw [hy] at hw
      simp only [Rounds.inX, Bool.and_eq_true, beq_iff_eq, decide_eq_true_eq] at hw
      have hpn : p ≠ n := by
        rcases recv_cases n root e hn hr hy with ⟨_, _, _, h, _⟩ | ⟨_, _, _, h, _⟩ | ⟨h, _⟩ <;> omega
      have hl1 : l.1 = p := by rw [hw.1.1.1]; simp only [scatter]; rw [if_neg hpn]
      have hb : y.buf ≠ 2 := by
        rcases recv_cases n root e hn hr hy with ⟨_, _, _, _, rfl⟩ | ⟨_, _, _, _, rfl⟩ | ⟨_, _, _, h⟩
        · simp
        · simp
        · obtain ⟨_, _, _, _, rfl⟩ := treeRecv_some n e hn hg h
          simp only
          split <;> decide
      exact ⟨hpn, hl1, by rw [hw.1.1.2]; exact hb, Or.inl ⟨rfl, y, rfl, hw.1.1.2, hw.2⟩⟩

theorem scatter_ok : (scatter (V := V) n root e).Ok := by
  obtain ⟨M, hK, hm, hlt, hle, hg⟩ := mid_spec n hn
  have hmpos : 0 < mid n := by rw [hm]; exact Nat.two_pow_pos M
  refine ⟨?_, ?_, ?_, ?_, ?_, ?_, ?_⟩
  · -- matched
    intro p i q x hp hi hq h
    rcases send_cases n root e hn hr h with ⟨h1, h2, h3, h4, h5⟩ | ⟨h1, h2, h3, h4, h5⟩ | ⟨h1, h2, h3, h4⟩
    · refine ⟨{ buf := 1, off := 0, len := mid n * e }, ?_, by rw [h5]⟩
      simp only [scatter]
      rw [if_pos h1, if_pos ⟨h2, h3, h4⟩]
    · refine ⟨{ buf := 1, off := 0, len := min (n - mid n) (mid n) * e }, ?_, by rw [h5]⟩
      simp only [scatter]
      rw [if_neg (by omega), if_neg (by omega), if_pos h2, if_pos ⟨h3, h1, h4⟩]
    · obtain ⟨g1, g2, g3, g4, g5⟩ := treeSend_some n root e hn hg h4
      refine ⟨{ buf := if 2 ^ (M - 1 - (i - 2)) ≠ 1 then 1 else 0, off := 0,
                len := min (n - (p + 2 ^ (M - 1 - (i - 2)))) (2 ^ (M - 1 - (i - 2))) * e }, ?_, ?_⟩
      · rw [recv_tree n root e hn hr q i p h2 h1 h3, g3]
        exact treeRecv_eq n e hn hg g1 g2
      · rw [g5]
        simp only
        rw [g3]
  · -- matched'
    intro p i q y hp hi hq h
    rcases recv_cases n root e hn hr h with ⟨h1, h2, h3, h4, h5⟩ | ⟨h1, h2, h3, h4, h5⟩ | ⟨h1, h2, h3, h4⟩
    · refine ⟨{ buf := 2, off := 0, len := mid n * e }, ?_⟩
      simp only [scatter]
      rw [if_pos h1, if_pos ⟨h2, h3, h4⟩]
    · refine ⟨{ buf := 2, off := mid n * e, len := min (n - mid n) (mid n) * e }, ?_⟩
      simp only [scatter]
      rw [if_neg (by omega), if_neg (by omega), if_pos h2, if_pos ⟨h3, h1, h4⟩]
    · obtain ⟨g1, g2, g3, _, g5⟩ := treeRecv_some n e hn hg h4
      have hqn : q < n := by
        have : q < n + 1 := hq
        omega
      rw [send_tree n root e hn hr p i q h2 h1 h3, g3]
      exact ⟨_, treeSend_eq n root e hn hg g1 g2 (by omega)⟩
  · intro p i q x _ _ _ _; rfl
  · -- keys
    intro p i q p' i' q' x x' hp hi hq hp' hi' hq' h h' h1 h2 h3
    have hpn : ∀ {p i q x}, (scatter (V := V) n root e).recv p i q = some x → p ≠ n := by
      intro p i q x h
      rcases recv_cases n root e hn hr h with ⟨_, _, _, h, _⟩ | ⟨_, _, _, h, _⟩ | ⟨h, _⟩ <;> omega
    have a1 := hpn h
    have a2 := hpn h'
    have hpp : p = p' := by
      simp only [scatter] at h1
      rw [if_neg a1, if_neg a2] at h1
      exact h1
    subst hpp
    have ht : i - 1 = i' - 1 := h3
    rcases recv_cases n root e hn hr h with ⟨b1, b2, b3, b4, _⟩ | ⟨b1, b2, b3, b4, _⟩ | ⟨b1, b2, b3, b4⟩ <;>
      rcases recv_cases n root e hn hr h' with ⟨c1, c2, c3, c4, _⟩ | ⟨c1, c2, c3, c4, _⟩ | ⟨c1, c2, c3, c4⟩
    · exact ⟨rfl, by omega, by omega⟩
    · omega
    · omega
    · omega
    · exact ⟨rfl, by omega, by omega⟩
    · omega
    · omega
    · omega
    · simp only [scatter] at h2
      rw [if_neg b2, if_neg c2] at h2
      exact ⟨rfl, by omega, h2⟩
  · -- sep
    intro a b l ha hb hne hw hu
    have hwa := writes_cases n root e hn hr ha hw
    have ha1 := hwa.1
    have ha2 := hwa.2.1
    have ha3 := hwa.2.2.1
    clear hwa
    rcases hu with hu | hu
    · have hb2 := (writes_cases n root e hn hr hb hu).2.1
      omega
    · -- b reads
      obtain ⟨p, i, k, q⟩ := b
      simp only at hne
      cases k with
      | recv =>
        obtain ⟨_, hb2, _⟩ := writes_cases n root e hn hr hb hu
        simp only at hb2
        omega
      | loc =>
        simp only [Rounds.touchB] at hu
        cases ho : (scatter (V := V) n root e).loc p i with
        | none => rw [ho] at hu; simp at hu
        | some o =>
          rw [ho] at hu
          simp only [Bool.and_eq_true, beq_iff_eq] at hu
          have h1 := (loc_some n root e hn hr ho).1
          have := hu.1
          simp only [scatter] at this
          rw [if_neg h1] at this
          omega
      | send =>
        simp only [Rounds.touchB] at hu
        cases hx : (scatter (V := V) n root e).send p i q with
        | none => rw [hx] at hu; simp at hu
        | some x =>
          rw [hx] at hu
          simp only [Rounds.inX, Bool.and_eq_true, beq_iff_eq, decide_eq_true_eq] at hu
          have h1 := hu.1.1.1
          have h2 := hu.1.1.2
          by_cases hpn : p = n
          · rcases send_cases n root e hn hr hx with ⟨_, _, _, _, h5⟩ | ⟨h, _⟩ | ⟨h, _⟩
            · rw [h5] at h2
              exact ha3 h2
            · omega
            · exact h hpn
          · simp only [scatter] at h1
            rw [if_neg hpn] at h1
            omega
  · -- round
    intro a b l ha hb hab hp hi hw hu
    obtain ⟨ha1, ha2, ha3, hac⟩ := writes_cases n root e hn hr ha hw
    obtain ⟨_, _, haq, hah⟩ := Rounds.mem_acts.mp ha
    obtain ⟨_, _, _, hbh⟩ := Rounds.mem_acts.mp hb
    obtain ⟨p, i, k, q⟩ := a
    obtain ⟨p', i', k', q'⟩ := b
    simp only at hp hi hac ha1 ha2
    subst hp
    subst hi
    rcases hac with ⟨rfl, y, hy, hlb, _⟩ | ⟨rfl, o, ho⟩
    · cases k' with
      | loc =>
        simp only [Rounds.has, Bool.and_eq_true, beq_iff_eq] at hbh
        obtain ⟨o, ho⟩ := Option.isSome_iff_exists.mp hbh.1
        have h1 := (loc_some n root e hn hr ho).2.1
        rcases recv_cases n root e hn hr hy with ⟨_, h, _⟩ | ⟨_, h, _⟩ | ⟨_, _, _, h⟩
        · omega
        · omega
        · have := (treeRecv_some n e hn hg h).1
          omega
      | recv =>
        obtain ⟨y', hy'⟩ := Option.isSome_iff_exists.mp hbh
        replace hy' : (scatter (V := V) n root e).recv p i q' = some y' := hy'
        apply hab
        rcases recv_cases n root e hn hr hy with ⟨b1, b2, b3, b4, _⟩ | ⟨b1, b2, b3, b4, _⟩ | ⟨b1, b2, b3, b4⟩ <;>
          rcases recv_cases n root e hn hr hy' with ⟨c1, c2, c3, c4, _⟩ | ⟨c1, c2, c3, c4, _⟩ | ⟨c1, c2, c3, c4⟩
        · rw [b1, c1]
        · omega
        · omega
        · omega
        · rw [b1, c1]
        · omega
        · omega
        · omega
        · have u1 := (treeRecv_some n e hn hg b4).2.2.1
          have u2 := (treeRecv_some n e hn hg c4).2.2.1
          have : q = q' := by omega
          rw [this]
      | send =>
        obtain ⟨x, hx⟩ := Option.isSome_iff_exists.mp hbh
        replace hx : (scatter (V := V) n root e).send p i q' = some x := hx
        rcases recv_cases n root e hn hr hy with ⟨b1, b2, b3, b4, _⟩ | ⟨b1, b2, b3, b4, _⟩ | ⟨b1, b2, b3, b4⟩ <;>
          rcases send_cases n root e hn hr hx with ⟨c1, c2, c3, c4, _⟩ | ⟨c1, c2, c3, c4, _⟩ | ⟨c1, c2, c3, c4⟩
        · omega
        · omega
        · omega
        · omega
        · omega
        · omega
        · omega
        · omega
        · exact (treeRecv_some n e hn hg b4).2.2.2.1 (treeSend_some n root e hn hg c4).2.1
    · obtain ⟨h1, h2, h3, h4, h5⟩ := loc_some n root e hn hr ho
      simp only [Rounds.has, Bool.and_eq_true, beq_iff_eq] at hah
      cases k' with
      | loc =>
        simp only [Rounds.has, Bool.and_eq_true, beq_iff_eq] at hbh
        apply hab
        rw [hah.2, hbh.2]
      | recv =>
        obtain ⟨y', hy'⟩ := Option.isSome_iff_exists.mp hbh
        replace hy' : (scatter (V := V) n root e).recv p i q' = some y' := hy'
        rcases recv_cases n root e hn hr hy' with ⟨_, h, _⟩ | ⟨_, h, _⟩ | ⟨_, _, _, h⟩
        · omega
        · omega
        · have := (treeRecv_some n e hn hg h).1
          omega
      | send =>
        obtain ⟨x, hx⟩ := Option.isSome_iff_exists.mp hbh
        replace hx : (scatter (V := V) n root e).send p i q' = some x := hx
        rcases send_cases n root e hn hr hx with ⟨_, h, _⟩ | ⟨_, h, _⟩ | ⟨_, _, _, h⟩
        · omega
        · omega
        · have := (treeSend_some n root e hn hg h).1
          omega
  · -- localOk
    intro p i o M M' b x h hw hM
    obtain ⟨_, _, _, _, rfl⟩ := loc_some n root e hn hr h
    simp only [copyOut, Bool.and_eq_true, beq_iff_eq, decide_eq_true_eq] at hw hM ⊢
    exact hM 1 _ ⟨rfl, hw.2⟩

/-- Element `(p, b, x)` keeps its value in round `i` if no receive or copy of rank `p` in
that round writes it. -/
theorem keep (M0 : Loc → V) (i p b x : Nat)
    (hrc : ∀ q y, (scatter (V := V) n root e).recv p i q = some y → ¬ (b = y.buf ∧ x < y.off + y.len))
    (hl : (scatter (V := V) n root e).loc p i = none ∨ b ≠ 0) :
    (scatter n root e).sync M0 (i + 1) (p, b, x) = (scatter n root e).sync M0 i (p, b, x) := by
  apply Rounds.sync_keep
  intro a ha hi
  rw [Bool.eq_false_iff]
  intro hw
  obtain ⟨_, h2, h3, hc⟩ := writes_cases n root e hn hr ha hw
  obtain ⟨p', i', k, q⟩ := a
  simp only at h2 hi
  subst h2
  subst hi
  rcases hc with ⟨_, y, hy, h4, h5⟩ | ⟨hk, o, ho⟩
  · exact hrc q y hy ⟨h4, h5⟩
  · simp only at hk ho
    subst hk
    rcases hl with hl | hl
    · rw [hl] at ho; simp at ho
    · simp only [Rounds.writesB, ho] at hw
      obtain ⟨_, _, _, _, rfl⟩ := loc_some n root e hn hr ho
      simp only [copyOut, Bool.and_eq_true, beq_iff_eq] at hw
      exact hl hw.2.1

/-- The send buffer is never changed. -/
theorem send_buffer (M0 : Loc → V) (i p x : Nat) : (scatter n root e).sync M0 i (p, 2, x) = M0 (p, 2, x) := by
  induction i with
  | zero => rfl
  | succ i ih =>
    rw [Rounds.sync_keep, ih]
    intro a ha _
    rw [Bool.eq_false_iff]
    intro hw
    exact (writes_cases n root e hn hr ha hw).2.2.1 rfl

end

section
variable (n root e : Nat) (hn : 3 ≤ n) (hr : root < n) (hroot : root = 0 ∨ root % 2 = 1)
include hn hr hroot

/-- Before iteration `k` every even rank that is a multiple of `2^(M-k)` holds the blocks of
its window (rank 0 as root in its send buffer). -/
theorem tree_sync (data : Nat → V) (old : Loc → V) (M : Nat) (hK : (computeTree n).log2nproc = M + 1)
    (hm : mid n = 2 ^ M) (hg : ∀ k, gap n k = if k < M then 2 ^ (M - 1 - k) else 0) (hM : 1 ≤ M)
    (hlt : 2 ^ M < n) (hle : n ≤ 2 ^ M + 2 ^ M) (k : Nat) (hk : k ≤ M) :
    ∀ p j y, p < n → p % 2 = 0 → p % 2 ^ (M - k) = 0 → j < 2 ^ (M - k) → p + j < n → y < e →
      (scatter n root e).sync (scatterInit n root e data old) (2 + k) (p, sendBuf root p, j * e + y) =
        data ((p + j) * e + y) := by
  have hn2 : 2 ≤ n := by omega
  have ok := scatter_ok (V := V) n root e hn2 hr
  have hmeven : 2 ^ M % 2 = 0 := by
    obtain ⟨d, rfl⟩ : ∃ d, M = d + 1 := ⟨M - 1, by omega⟩
    rw [Nat.pow_succ]; omega
  have hpos := Nat.two_pow_pos M
  have hrm : root ≠ mid n := by omega
  have hsrc : ∀ i x, (scatter n root e).sync (scatterInit n root e data old) i (root, 2, x) = data x := by
    intro i x
    rw [send_buffer n root e hn2 hr]
    simp [scatterInit]
  induction k with
  | zero =>
    intro p j y hp hp2 hpm hj hpj hy
    have hpc : p = 0 ∨ p = mid n := by
      rw [Nat.sub_zero] at hpm
      obtain ⟨c, rfl⟩ := Nat.dvd_of_mod_eq_zero hpm
      rcases Nat.lt_or_ge c 2 with h | h
      · have : c = 0 ∨ c = 1 := by omega
        rcases this with rfl | rfl
        · left; simp
        · right; rw [hm]; omega
      · have := Nat.mul_le_mul_left (2 ^ M) h
        omega
    rw [Nat.sub_zero] at hj
    by_cases hpr : p = root
    · have h0 : root = 0 := by omega
      have hsb : sendBuf root p = 2 := by simp [sendBuf, hpr]
      rw [hsb, hpr, hsrc, h0, Nat.zero_add]
    · have hsb : sendBuf root p = 1 := by simp [sendBuf, hpr]
      rw [hsb]
      rcases hpc with rfl | rfl
      · -- rank 0 from the root's extra send
        have h0 : root ≠ 0 := fun h => hpr h.symm
        have hs : (scatter (V := V) n root e).send n 1 0 = some { buf := 2, off := 0, len := mid n * e } := by
          simp only [scatter, if_true]
          rw [if_pos ⟨trivial, h0, trivial⟩]
        have hrc : (scatter (V := V) n root e).recv 0 1 n = some { buf := 1, off := 0, len := mid n * e } := by
          simp only [scatter, if_true]
          rw [if_pos ⟨trivial, h0, trivial⟩]
        have := Rounds.sync_recv ok (scatterInit n root e data old) (p := 0) (i := 1) (q := n)
          (by simp only [scatter]; omega) (by simp only [scatter]; omega) (by simp only [scatter]; omega)
          hs hrc (j * e + y) (Allgather.blk_lt (by rw [hm]; exact hj) hy)
        simp only [Bool.false_eq_true, if_false, Nat.zero_add] at this
        have e1 : (scatter (V := V) n root e).real 0 = 0 := by
          simp only [scatter]; rw [if_neg (by omega)]
        have e2 : (scatter (V := V) n root e).real n = root := by simp only [scatter, if_true]
        rw [e1, e2, hsrc] at this
        rw [Nat.zero_add]
        exact this
      · -- the midpoint from the root
        have hs : (scatter (V := V) n root e).send root 0 (mid n) =
            some { buf := 2, off := mid n * e, len := min (n - mid n) (mid n) * e } := by
          simp only [scatter]
          rw [if_neg (by omega), if_neg (by omega), if_pos trivial, if_pos ⟨hrm, trivial, trivial⟩]
        have hrc : (scatter (V := V) n root e).recv (mid n) 0 root =
            some { buf := 1, off := 0, len := min (n - mid n) (mid n) * e } := by
          simp only [scatter]
          rw [if_neg (by omega), if_neg (by omega), if_pos trivial, if_pos ⟨hrm, trivial, trivial⟩]
        have := Rounds.sync_recv ok (scatterInit n root e data old) (p := mid n) (i := 0) (q := root)
          (by simp only [scatter]; omega) (by simp only [scatter]; omega) (by simp only [scatter]; omega)
          hs hrc (j * e + y) (Allgather.blk_lt (by omega) hy)
        simp only [Bool.false_eq_true, if_false, Nat.zero_add] at this
        have e1 : (scatter (V := V) n root e).real (mid n) = mid n := by
          simp only [scatter]; rw [if_neg (by omega)]
        have e2 : (scatter (V := V) n root e).real root = root := by
          simp only [scatter]; rw [if_neg (by omega)]
        rw [e1, e2, hsrc] at this
        have hkeep := keep n root e hn2 hr (scatterInit n root e data old) 1 (mid n) 1 (j * e + y)
          (by
            intro q z hz _
            rcases recv_cases n root e hn2 hr hz with ⟨_, _, _, h, _⟩ | ⟨_, h, _⟩ | ⟨_, _, h, _⟩ <;> omega)
          (Or.inr (by decide))
        refine Eq.trans hkeep (Eq.trans this ?_)
        congr 1
        rw [Nat.add_mul]; omega
  | succ k ih =>
    intro p j y hp hp2 hpm hj hpj hy
    have ih' := ih (by omega)
    have hk' : k < M := by omega
    obtain ⟨g, hgd⟩ : ∃ g, M - 1 - k = g := ⟨_, rfl⟩
    have e1 : M - (k + 1) = g := by omega
    have e2 : M - k = g + 1 := by omega
    rw [e1] at hpm hj
    rw [e2] at ih'
    have hpow : 2 ^ (g + 1) = 2 ^ g + 2 ^ g := by rw [Nat.pow_succ]; omega
    have hgpos := Nat.two_pow_pos g
    show (scatter n root e).sync _ (2 + k + 1) _ = _
    by_cases hpm' : p % 2 ^ (g + 1) = 0
    · -- it does not receive
      rw [keep n root e hn2 hr]
      · exact ih' p j y hp hp2 hpm' (by omega) hpj hy
      · intro q z hz _
        rcases recv_cases n root e hn2 hr hz with ⟨_, h, _⟩ | ⟨_, h, _⟩ | ⟨_, _, _, h⟩
        · omega
        · omega
        · obtain ⟨_, _, _, h4, _⟩ := treeRecv_some n e hn2 hg h
          rw [show 2 + k - 2 = k by omega, hgd] at h4
          exact h4 hpm'
      · left
        cases ho : (scatter (V := V) n root e).loc p (2 + k) with
        | none => rfl
        | some o =>
          have := (loc_some n root e hn2 hr ho).2.1
          omega
    · obtain ⟨g1, g2⟩ := Gather.sender_partner p g hpm hpm'
      have hg1 : 2 ^ g ≠ 1 := by
        intro h
        cases g with
        | zero => simp at hpm'; omega
        | succ g => rw [Nat.pow_succ] at h; omega
      have hgeven : 2 ^ g % 2 = 0 := by
        cases g with
        | zero => simp at hg1
        | succ g => rw [Nat.pow_succ]; omega
      have hpr : p ≠ root := by omega
      have hsb : sendBuf root p = 1 := by simp [sendBuf, hpr]
      obtain ⟨q, hq⟩ : ∃ q, q = p - 2 ^ g := ⟨_, rfl⟩
      have hpq : p = q + 2 ^ g := by omega
      rw [← hq] at g2
      have hs := treeSend_eq n root e hn2 hg hk' (p := q) (by rw [hgd]; exact g2) (by rw [hgd]; omega)
      have hrc := treeRecv_eq n e hn2 hg hk' (p := q) (by rw [hgd]; exact g2)
      rw [hgd, ← hpq] at hs hrc
      simp only [ne_eq, hg1, not_false_eq_true, if_true] at hrc
      have hs' : (scatter (V := V) n root e).send q (2 + k) p =
          some { buf := sendBuf root q, off := 2 ^ g * e, len := min (n - p) (2 ^ g) * e } := by
        rw [send_tree n root e hn2 hr q (2 + k) p (by omega) (by omega) (by omega), show 2 + k - 2 = k by omega]
        exact hs
      have hrc' : (scatter (V := V) n root e).recv p (2 + k) q =
          some { buf := 1, off := 0, len := min (n - p) (2 ^ g) * e } := by
        rw [recv_tree n root e hn2 hr p (2 + k) q (by omega) (by omega) (by omega), show 2 + k - 2 = k by omega]
        exact hrc
      have := Rounds.sync_recv ok (scatterInit n root e data old) (p := p) (i := 2 + k) (q := q)
        (by simp only [scatter]; omega) (by simp only [scatter]; omega) (by simp only [scatter]; omega)
        hs' hrc' (j * e + y) (Allgather.blk_lt (by omega) hy)
      simp only [Bool.false_eq_true, if_false, Nat.zero_add] at this
      have r1 : (scatter (V := V) n root e).real p = p := by
        simp only [scatter]; rw [if_neg (by omega)]
      have r2 : (scatter (V := V) n root e).real q = q := by
        simp only [scatter]; rw [if_neg (by omega)]
      rw [r1, r2] at this
      rw [hsb]
      refine Eq.trans this ?_
      have hidx : 2 ^ g * e + (j * e + y) = (2 ^ g + j) * e + y := by rw [Nat.add_mul]; omega
      rw [hidx]
      have := ih' q (2 ^ g + j) y (by omega) (by omega) g2 (by omega) (by omega) hy
      refine Eq.trans this ?_
      rw [hpq, Nat.add_assoc]

end

/-- C32, scatter, for three or more ranks with root 0 or an odd root: whatever the order and
delay of messages the scatter ends on all ranks, all messages are consumed, and every rank's
result is its block of the root's buffer.  Missing: two ranks, and even roots other than 0,
where it is false. -/
theorem C32_scatter_partial (n root e : Nat) (hn : 3 ≤ n) (hr : root < n) (hroot : root = 0 ∨ root % 2 = 1)
    (data : Nat → V) (old : Loc → V) :
    Yields (scatter n root e).sys (scatterInit n root e data old)
      (fun mem => Scattered n e data (fun r y => mem (r, 0, y))) := by
  have hn2 : 2 ≤ n := by omega
  have ok := scatter_ok (V := V) n root e hn2 hr
  apply Rounds.ends ok
  intro p y hp hy
  obtain ⟨M, hK, hm, hlt, hle, hg⟩ := mid_spec n hn2
  have hM : 1 ≤ M := by
    cases M with
    | zero => simp at hle; omega
    | succ M => omega
  have hmeven : 2 ^ M % 2 = 0 := by
    obtain ⟨d, rfl⟩ : ∃ d, M = d + 1 := ⟨M - 1, by omega⟩
    rw [Nat.pow_succ]; omega
  have ht := tree_sync n root e hn hr hroot data old M hK hm hg hM hlt hle
  show (scatter n root e).sync _ ((computeTree n).log2nproc + 1 + 1) (p, 0, y) = _
  by_cases hodd : p % 2 = 1
  · -- received in place in the last iteration
    rw [keep n root e hn2 hr]
    · have hMk : M - 1 < M := by omega
      have hs := treeSend_eq n root e hn2 hg hMk (p := p - 1)
        (by rw [show M - 1 - (M - 1) = 0 by omega]; simp; omega)
        (by rw [show M - 1 - (M - 1) = 0 by omega]; simp; omega)
      have hrc := treeRecv_eq n e hn2 hg hMk (p := p - 1)
        (by rw [show M - 1 - (M - 1) = 0 by omega]; simp; omega)
      rw [show M - 1 - (M - 1) = 0 by omega, Nat.pow_zero, show p - 1 + 1 = p by omega] at hs hrc
      simp only [ne_eq, not_true_eq_false, if_false] at hrc
      have hi : 2 + (M - 1) = M + 1 := by omega
      have hs' : (scatter (V := V) n root e).send (p - 1) (M + 1) p =
          some { buf := sendBuf root (p - 1), off := 1 * e, len := min (n - p) 1 * e } := by
        rw [send_tree n root e hn2 hr _ (M + 1) p (by omega) (by omega) (by omega), show M + 1 - 2 = M - 1 by omega]
        exact hs
      have hrc' : (scatter (V := V) n root e).recv p (M + 1) (p - 1) =
          some { buf := 0, off := 0, len := min (n - p) 1 * e } := by
        rw [recv_tree n root e hn2 hr p (M + 1) _ (by omega) (by omega) (by omega), show M + 1 - 2 = M - 1 by omega]
        exact hrc
      have hlen : y < min (n - p) 1 * e := by
        rw [Nat.min_eq_right (by omega), Nat.one_mul]
        exact hy
      have := Rounds.sync_recv ok (scatterInit n root e data old) (p := p) (i := M + 1) (q := p - 1)
        (by simp only [scatter]; omega) (by simp only [scatter]; omega) (by simp only [scatter]; omega)
        hs' hrc' y hlen
      simp only [Bool.false_eq_true, if_false, Nat.zero_add, Nat.one_mul] at this
      have r1 : (scatter (V := V) n root e).real p = p := by
        simp only [scatter]; rw [if_neg (by omega)]
      have r2 : (scatter (V := V) n root e).real (p - 1) = p - 1 := by
        simp only [scatter]; rw [if_neg (by omega)]
      rw [r1, r2] at this
      rw [hK]
      refine Eq.trans this ?_
      have := ht (M - 1) (by omega) (p - 1) 1 y (by omega) (by omega)
        (by rw [show M - (M - 1) = 1 by omega]; simp; omega)
        (by rw [show M - (M - 1) = 1 by omega]; simp) (by omega) hy
      rw [hi, Nat.one_mul, show p - 1 + 1 = p by omega] at this
      exact this
    · intro q z hz _
      rcases recv_cases n root e hn2 hr hz with ⟨_, h, _⟩ | ⟨_, h, _⟩ | ⟨_, _, _, h⟩
      · omega
      · omega
      · have := (treeRecv_some n e hn2 hg h).1
        omega
    · left
      cases ho : (scatter (V := V) n root e).loc p ((computeTree n).log2nproc + 1) with
      | none => rfl
      | some o =>
        have := (loc_some n root e hn2 hr ho).2.2.2.1
        omega
  · by_cases hpr : p = root
    · -- root 0 copied its block at the start
      have h0 : root = 0 := by omega
      subst hpr
      subst h0
      have : ∀ i, (scatter n 0 e).sync (scatterInit n 0 e data old) i (0, 0, y) = data y := by
        intro i
        induction i with
        | zero =>
          show scatterInit n 0 e data old (0, 0, y) = _
          simp [scatterInit, hy]
        | succ i ih =>
          rw [keep n 0 e hn2 hr, ih]
          · intro q z hz _
            rcases recv_cases n 0 e hn2 hr hz with ⟨_, _, h, _⟩ | ⟨_, _, _, h, _⟩ | ⟨_, _, _, h⟩
            · exact h rfl
            · have := Nat.two_pow_pos M
              omega
            · obtain ⟨_, _, _, h4, _⟩ := treeRecv_some n e hn2 hg h
              exact h4 (Nat.zero_mod _)
          · left
            cases ho : (scatter (V := V) n 0 e).loc 0 i with
            | none => rfl
            | some o => exact absurd rfl (loc_some n 0 e hn2 hr ho).2.2.1
      rw [this, Nat.zero_mul, Nat.zero_add]
    · -- an even rank copies its block at the end
      have hloc : (scatter (V := V) n root e).loc p ((computeTree n).log2nproc + 1) = some (copyOut e) := by
        simp only [scatter]
        rw [if_pos ⟨by omega, trivial, hpr, by omega⟩]
      have ha : (⟨p, (computeTree n).log2nproc + 1, .loc, p⟩ : Act) ∈ (scatter (V := V) n root e).acts := by
        rw [Rounds.mem_acts]
        refine ⟨?_, ?_, ?_, by simp [Rounds.has, hloc]⟩
        · show p < n + 1; omega
        · simp only [scatter]; omega
        · show p < n + 1; omega
      have r1 : (scatter (V := V) n root e).real p = p := by
        simp only [scatter]; rw [if_neg (by omega)]
      have hw : (scatter (V := V) n root e).writesB ⟨p, (computeTree n).log2nproc + 1, .loc, p⟩ (p, 0, y) = true := by
        simp only [Rounds.writesB, hloc, r1]
        simp [copyOut, hy]
      have := Rounds.sync_write ok (scatterInit n root e data old) ha hw
      refine Eq.trans this ?_
      simp only [Rounds.effF, hloc, r1]
      rw [if_pos (by simp [copyOut, hy])]
      show (scatter n root e).sync _ ((computeTree n).log2nproc + 1) (p, 1, y) = _
      have := ht M (Nat.le_refl _) p 0 y hp (by omega) (by simp [Nat.mod_one]) (by simp) (by omega) hy
      have hsb : sendBuf root p = 1 := by simp [sendBuf, hpr]
      rw [hsb, Nat.zero_mul, Nat.zero_add, Nat.add_zero] at this
      rw [hK, show M + 1 + 1 = 2 + M by omega]
      exact this

/-- C32 is false for two ranks: rank 1 receives its block into the temporary buffer and
never copies it to the result. -/
theorem C32_scatter_two_ranks_refuted :
    ¬ ∀ (e : Nat) (data : Nat → Nat) (old : Loc → Nat),
      Yields (scatter 2 0 e).sys (scatterInit 2 0 e data old)
        (fun mem => Scattered 2 e data (fun r y => mem (r, 0, y))) := by
  intro h
  have h1 := h 1 (fun x => 10 + x) (fun _ => 0)
  have h2 := Rounds.ends (scatter_ok 2 0 1 (by omega) (by omega)) (scatterInit 2 0 1 (fun x => 10 + x) (fun _ => 0))
    (fun mem => mem (1, 0, 0) = 0) (by decide +kernel)
  obtain ⟨mem, e1, e2⟩ := Yields.both h1 h2
  have := e1 1 0 (by omega) (by omega)
  simp only [e2] at this
  omega

/-- C32 is false for an even root other than 0: the root never gets its own block, and the
ranks below it in the tree get the wrong one. -/
theorem C32_scatter_even_root_refuted :
    ¬ ∀ (n root e : Nat) (data : Nat → Nat) (old : Loc → Nat), 3 ≤ n → root < n →
      Yields (scatter n root e).sys (scatterInit n root e data old)
        (fun mem => Scattered n e data (fun r y => mem (r, 0, y))) := by
  intro h
  have h1 := h 4 2 1 (fun x => 10 + x) (fun _ => 0) (by omega) (by omega)
  have h2 := Rounds.ends (scatter_ok 4 2 1 (by omega) (by omega)) (scatterInit 4 2 1 (fun x => 10 + x) (fun _ => 0))
    (fun mem => mem (2, 0, 0) = 0 ∧ mem (3, 0, 0) = 11) (by decide +kernel)
  obtain ⟨mem, e1, e2⟩ := Yields.both h1 h2
  have := e1 2 0 (by omega) (by omega)
  simp only [e2.1] at this
  omega

/-- Seven ranks, blocks of two elements, root 3. -/
example : (let mem := (scatter 7 3 2).sync (scatterInit 7 3 2 (fun x => 100 + x) (fun _ => 0)) 5
     (List.range 7).map (fun r => (List.range 2).map (fun y => mem (r, 0, y)))) =
    [[100, 101], [102, 103], [104, 105], [106, 107], [108, 109], [110, 111], [112, 113]] := by
  decide +kernel

end SST.Coll.Scatter
