import Verif.Coll.Allgatherv
import Verif.Coll.AllgatherProps
/-!
C71: the allgather with a count per rank.
-/
set_option autoImplicit false
namespace SST.Coll.Allgatherv
open SST.Coll

variable {V : Type}

/-- Specification: on every rank, rank `b`'s contribution starts after the contributions of
the ranks before it. -/
def AllGatheredV (n : Nat) (cnt : Nat → Nat) (contrib result : Nat → Nat → V) : Prop :=
  ∀ p b x, p < n → b < n → x < cnt b → result p (((List.range b).map cnt).sum + x) = contrib b x

theorem offset_eq (cnt : Nat → Nat) (b : Nat) : offset cnt b = ((List.range b).map cnt).sum := by
  induction b with
  | zero => rfl
  | succ b ih => rw [List.range_succ]; simp [offset, ih]

theorem span_add (n : Nat) (cnt : Nat → Nat) (p a b : Nat) :
    span n cnt p (a + b) = span n cnt p a + span n cnt ((p + a) % n) b := by
  induction b with
  | zero => simp [span]
  | succ b ih =>
    rw [← Nat.add_assoc]
    simp only [span]
    rw [ih, Nat.mod_add_mod, Nat.add_assoc, Nat.add_assoc]

theorem span_mono (n : Nat) (cnt : Nat → Nat) (p : Nat) {a b : Nat} (h : a ≤ b) : span n cnt p a ≤ span n cnt p b := by
  obtain ⟨c, rfl⟩ : ∃ c, b = a + c := ⟨b - a, by omega⟩
  rw [span_add]
  omega

theorem span_zero (n : Nat) (cnt : Nat → Nat) (k : Nat) (hk : k ≤ n) : span n cnt 0 k = offset cnt k := by
  induction k with
  | zero => rfl
  | succ k ih => simp only [span, offset]; rw [ih (by omega), Nat.zero_add, Nat.mod_eq_of_lt (by omega)]

/-- A full turn is the total, wherever it starts. -/
theorem span_full (n : Nat) (cnt : Nat → Nat) (p : Nat) (hp : p < n) : span n cnt p n = offset cnt n := by
  have h1 := span_add n cnt p (n - p) p
  have h2 := span_add n cnt 0 p (n - p)
  have h3 := span_zero n cnt n (Nat.le_refl _)
  rw [show n - p + p = n by omega, show p + (n - p) = n by omega, Nat.mod_self] at h1
  rw [show p + (n - p) = n by omega, Nat.zero_add, Nat.mod_eq_of_lt hp] at h2
  omega

theorem recvd_eq (n : Nat) (cnt : Nat → Nat) (p i : Nat) (hp : p < n) : recvd n cnt p i = span n cnt p (2 ^ i) := by
  induction i with
  | zero => simp [recvd, span, Nat.mod_eq_of_lt hp]
  | succ i ih =>
    simp only [recvd]
    rw [ih, Nat.pow_succ, Nat.mul_two, span_add]

theorem round (n i : Nat) (cnt : Nat → Nat) (hn : 1 ≤ n) (hi : i < (bruckv (V := V) n cnt).T) :
    2 ^ i < n ∧ Allgather.cnt n i ≤ 2 ^ i ∧ 2 ^ i + Allgather.cnt n i ≤ n ∧ 1 ≤ Allgather.cnt n i ∧
    (i + 1 < (bruckv (V := V) n cnt).T → 2 ^ i + Allgather.cnt n i = 2 ^ (i + 1)) ∧
    (i + 1 = (bruckv (V := V) n cnt).T → 2 ^ i + Allgather.cnt n i = n) :=
  Allgather.bruck_round (V := V) n i 1 hn hi

/-- In every round a rank sends the elements of the first `Allgather.cnt n i` ranks it
holds, and receives as many ranks' elements. -/
theorem send_eq (n i : Nat) (cnt : Nat → Nat) (hn : 1 ≤ n) (hi : i < (bruckv (V := V) n cnt).T) (p : Nat) (hp : p < n) :
    (bruckv (V := V) n cnt).send p i ((p + n - 2 ^ i) % n) =
      some { buf := 0, off := 0, len := span n cnt p (Allgather.cnt n i) } := by
  have hr := round n i cnt hn hi
  simp only [bruckv]
  rw [if_pos trivial]
  congr 2
  unfold Allgather.cnt
  split
  · exact recvd_eq n cnt p i hp
  · rename_i h
    have hq : (p + n - 2 ^ i) % n < n := Nat.mod_lt _ (by omega)
    have hfull := span_full n cnt _ hq
    have hc : 2 ^ i + (Allgather.bruckTree n).2 = n := by
      have := hr.2.2.2.2.2
      simp only [bruckv] at hi this
      rw [Allgather.cnt, if_neg h] at this
      apply this
      split at hi <;> rename_i h1
      · rw [if_pos h1]; omega
      · omega
    have := span_add n cnt ((p + n - 2 ^ i) % n) (2 ^ i) (Allgather.bruckTree n).2
    rw [hc, Allgather.mod_shift hp (by omega)] at this
    omega

theorem recv_eq (n i : Nat) (cnt : Nat → Nat) (hn : 1 ≤ n) (hi : i < (bruckv (V := V) n cnt).T) (p : Nat) (hp : p < n) :
    (bruckv (V := V) n cnt).recv p i ((p + 2 ^ i) % n) =
      some { buf := 0, off := span n cnt p (2 ^ i), len := span n cnt ((p + 2 ^ i) % n) (Allgather.cnt n i) } := by
  have hr := round n i cnt hn hi
  simp only [bruckv]
  rw [if_pos trivial, recvd_eq n cnt p i hp]
  congr 2
  unfold Allgather.cnt
  split
  · rfl
  · rename_i h
    have hfull := span_full n cnt p hp
    have hc : 2 ^ i + (Allgather.bruckTree n).2 = n := by
      have := hr.2.2.2.2.2
      simp only [bruckv] at hi this
      rw [Allgather.cnt, if_neg h] at this
      apply this
      split at hi <;> rename_i h1
      · rw [if_pos h1]; omega
      · omega
    have := span_add n cnt p (2 ^ i) (Allgather.bruckTree n).2
    rw [hc] at this
    omega

theorem send_partner {n i p q : Nat} {cnt : Nat → Nat} {x : Xfer}
    (h : (bruckv (V := V) n cnt).send p i q = some x) : q = (p + n - 2 ^ i) % n := by
  simp only [bruckv] at h
  split at h
  · assumption
  · simp at h

theorem recv_partner {n i p q : Nat} {cnt : Nat → Nat} {x : Xfer}
    (h : (bruckv (V := V) n cnt).recv p i q = some x) : q = (p + 2 ^ i) % n := by
  simp only [bruckv] at h
  split at h
  · assumption
  · simp at h

theorem bruckv_ok (n : Nat) (cnt : Nat → Nat) (hn : 1 ≤ n) : (bruckv (V := V) n cnt).Ok := by
  apply Rounds.ok_simple
  · rfl
  · intro p i; rfl
  · intro p q i; rfl
  · intro p i j hi hj h; exact h
  · intro p i q x hp hi hq h
    have hb := round n i cnt hn hi
    have hqe := send_partner h
    have hpq : p = (q + 2 ^ i) % n := by rw [hqe, Allgather.mod_shift (n := n) hp (by omega)]
    rw [hqe, send_eq n i cnt hn hi p hp] at h
    simp only [Option.some.injEq] at h
    subst h
    have := recv_eq n i cnt hn hi q hq (V := V)
    rw [← hpq] at this
    exact ⟨_, this, rfl⟩
  · intro p i q y hp hi hq h
    have hb := round n i cnt hn hi
    have hpe := recv_partner h
    have hqp : q = (p + n - 2 ^ i) % n := by rw [hpe, Allgather.mod_shift' (n := n) hq (by omega)]
    have := send_eq n i cnt hn hi p hp (V := V)
    rw [← hqp] at this
    exact ⟨_, this⟩
  · intro p i q q' x x' hp hi hq hq' h h' hne _
    exact absurd ((recv_partner h).trans (recv_partner h').symm) hne
  · intro p i q q' x y hp hi hq hq' h h' _
    have hb := round n i cnt hn hi
    rw [send_partner h, send_eq n i cnt hn hi p hp] at h
    rw [recv_partner h', recv_eq n i cnt hn hi p hp] at h'
    simp only [Option.some.injEq] at h h'
    subst h
    subst h'
    left
    have := span_mono n cnt p hb.2.1
    simp only
    omega

theorem bruckv_sync (n : Nat) (cnt : Nat → Nat) (hn : 1 ≤ n) (contrib : Nat → Nat → V) (M0 : Loc → V)
    (h0 : ∀ p x, p < n → x < cnt p → M0 (p, 0, x) = contrib p x) (i : Nat) (hi : i ≤ (bruckv (V := V) n cnt).T) :
    ∀ p b x, p < n → b < (if i = (bruckv (V := V) n cnt).T then n else 2 ^ i) → x < cnt ((p + b) % n) →
      (bruckv n cnt).sync M0 i (p, 0, span n cnt p b + x) = contrib ((p + b) % n) x := by
  have hT0 : (bruckv (V := V) n cnt).T = 0 → n = 1 := by
    intro h
    have hs := Allgather.bruckTree_spec n hn
    simp only [bruckv] at h
    have hx : (Allgather.bruckTree n).2 = 0 := by
      refine Classical.byContradiction fun hc => ?_
      rw [if_pos hc] at h
      omega
    have hy : (Allgather.bruckTree n).1 = 0 := by omega
    rcases hs.2 with h1 | h1
    · rw [hy] at h1; simpa using h1.2
    · exact absurd hx h1.1
  induction i with
  | zero =>
    intro p b x hp hb hx
    have hb0 : b = 0 := by
      split at hb
      · rename_i h; have := hT0 h.symm; omega
      · simpa using hb
    subst hb0
    rw [Nat.add_zero, Nat.mod_eq_of_lt hp] at hx ⊢
    show M0 (p, 0, 0 + x) = _
    rw [Nat.zero_add]
    exact h0 p x hp hx
  | succ i ih =>
    intro p b x hp hb hx
    have hiT : i < (bruckv (V := V) n cnt).T := by omega
    have hr := round n i cnt hn hiT
    have ih' := ih (by omega)
    rw [if_neg (by omega)] at ih'
    have hbs : b < 2 ^ i + Allgather.cnt n i := by
      split at hb
      · rename_i h; have := hr.2.2.2.2.2 h; omega
      · have := hr.2.2.2.2.1 (by omega); omega
    by_cases hlow : b < 2 ^ i
    · rw [Rounds.sync_keep', ih' p b x hp hlow hx]
      · intro q _ h; exact h
      · intro q y _ hy
        rw [recv_partner hy, recv_eq n i cnt hn hiT p hp] at hy
        simp only [Option.some.injEq] at hy
        subst hy
        simp only
        have := span_mono n cnt p (show b + 1 ≤ 2 ^ i from hlow)
        simp only [span] at this
        omega
      · intro o ho; simp [bruckv] at ho
    · have hq : (p + 2 ^ i) % n < n := Nat.mod_lt _ (by omega)
      have hsend := send_eq n i cnt hn hiT ((p + 2 ^ i) % n) hq (V := V)
      rw [Allgather.mod_shift' hp (by omega)] at hsend
      have hrecv := recv_eq n i cnt hn hiT p hp (V := V)
      obtain ⟨c, rfl⟩ : ∃ c, b = 2 ^ i + c := ⟨b - 2 ^ i, by omega⟩
      have hc : c < Allgather.cnt n i := by omega
      have hidx : (p + (2 ^ i + c)) % n = ((p + 2 ^ i) % n + c) % n := by
        rw [Nat.mod_add_mod, Nat.add_assoc]
      rw [hidx] at hx ⊢
      have hlt : span n cnt ((p + 2 ^ i) % n) c + x < span n cnt ((p + 2 ^ i) % n) (Allgather.cnt n i) := by
        have := span_mono n cnt ((p + 2 ^ i) % n) (show c + 1 ≤ Allgather.cnt n i from hc)
        simp only [span] at this
        omega
      have := Rounds.sync_recv (bruckv_ok n cnt hn) M0 (p := p) (i := i) hp hiT hq hsend hrecv _ hlt
      rw [span_add, Nat.add_assoc]
      refine Eq.trans this ?_
      simp only [Bool.false_eq_true, if_false, Nat.zero_add]
      exact ih' ((p + 2 ^ i) % n) c x hq (by omega) hx

theorem final (n : Nat) (cnt : Nat → Nat) (contrib : Nat → Nat → V) (mem : Loc → V)
    (hs : ∀ p b x, p < n → b < n → x < cnt ((p + b) % n) → mem (p, 0, span n cnt p b + x) = contrib ((p + b) % n) x) :
    AllGatheredV n cnt contrib (finalize n cnt mem) := by
  intro p b x hp hb hx
  rw [← offset_eq]
  have hz : ∀ k, k ≤ n → span n cnt 0 k = offset cnt k := span_zero n cnt
  have hmono : ∀ {a b}, a ≤ b → b ≤ n → offset cnt a ≤ offset cnt b := by
    intro a b h1 h2
    rw [← hz a (by omega), ← hz b h2]
    exact span_mono n cnt 0 h1
  have hsplit : ∀ {a b}, a ≤ b → b ≤ n → offset cnt b = offset cnt a + span n cnt (a % n) (b - a) := by
    intro a b h1 h2
    have := span_add n cnt 0 a (b - a)
    rw [show a + (b - a) = b by omega, hz a (by omega), hz b h2, Nat.zero_add] at this
    exact this
  unfold finalize
  by_cases hp0 : p = 0
  · subst hp0
    rw [if_pos rfl, ← hz b (by omega)]
    have := hs 0 b x hp hb (by rw [Nat.zero_add, Nat.mod_eq_of_lt hb]; exact hx)
    rw [Nat.zero_add, Nat.mod_eq_of_lt hb] at this
    exact this
  · rw [if_neg hp0]
    by_cases hbp : b < p
    · have h1 : offset cnt b + cnt b ≤ offset cnt p := hmono (show b + 1 ≤ p from hbp) (by omega)
      rw [if_pos (by omega)]
      have hidx : p + (n - p + b) = b + n := by omega
      have h2 := hsplit (show p ≤ n by omega) (Nat.le_refl n)
      rw [Nat.mod_eq_of_lt hp] at h2
      have h3 := span_add n cnt p (n - p) b
      rw [show p + (n - p) = n by omega, Nat.mod_self, hz b (by omega)] at h3
      have := hs p (n - p + b) x hp (by omega) (by rw [hidx, Nat.add_mod_right, Nat.mod_eq_of_lt hb]; exact hx)
      rw [hidx, Nat.add_mod_right, Nat.mod_eq_of_lt hb] at this
      rw [← this]
      congr 3
      omega
    · have h1 := hmono (show p ≤ b by omega) (show b ≤ n by omega)
      rw [if_neg (by omega)]
      have hidx : p + (b - p) = b := by omega
      have h2 := hsplit (show p ≤ b by omega) (show b ≤ n by omega)
      rw [Nat.mod_eq_of_lt hp] at h2
      have := hs p (b - p) x hp (by omega) (by rw [hidx, Nat.mod_eq_of_lt hb]; exact hx)
      rw [hidx, Nat.mod_eq_of_lt hb] at this
      rw [← this]
      congr 3
      omega

/-- C71: whatever the order and delay of messages, the allgather with counts ends on all
ranks, all messages are consumed, and every rank's result holds all contributions in rank
order. -/
theorem C71_bruckv (n : Nat) (cnt : Nat → Nat) (hn : 1 ≤ n) (contrib old : Nat → Nat → V) :
    Yields (bruckv n cnt).sys (init cnt contrib old)
      (fun mem => AllGatheredV n cnt contrib (finalize n cnt mem)) := by
  apply Rounds.ends (bruckv_ok n cnt hn)
  apply final
  have hs := bruckv_sync n cnt hn contrib (init cnt contrib old)
    (by intro p x _ hx; simp [init, hx]) _ (Nat.le_refl _)
  rw [if_pos rfl] at hs
  exact hs

/-- C71 in place: the contribution is in the result buffer at the rank's own offset. -/
theorem C71_bruckv_in_place (n : Nat) (cnt : Nat → Nat) (hn : 1 ≤ n) (contrib old : Nat → Nat → V)
    (hold : ∀ p x, p < n → x < cnt p → old p (((List.range p).map cnt).sum + x) = contrib p x) :
    Yields (bruckv n cnt).sys (initInPlace cnt old)
      (fun mem => AllGatheredV n cnt contrib (finalize n cnt mem)) := by
  have e : ∀ p x, p < n → x < cnt p → initInPlace cnt old (p, 0, x) = contrib p x := by
    intro p x hp hx
    have := hold p x hp hx
    rw [← offset_eq] at this
    unfold initInPlace
    by_cases h0 : p = 0
    · subst h0
      simpa [offset] using this
    · simp [hx, h0, this]
  apply Rounds.ends (bruckv_ok n cnt hn)
  apply final
  have hs := bruckv_sync n cnt hn contrib (initInPlace cnt old) e _ (Nat.le_refl _)
  rw [if_pos rfl] at hs
  exact hs

/-- Five ranks with 2, 0, 3, 1, 2 elements, seen from rank 3. -/
example : (let cnt := fun p => [2, 0, 3, 1, 2].getD p 0
     let mem := (bruckv 5 cnt).sync (init cnt (fun p x => 10 * p + x) (fun _ _ => 99)) 3
     (List.range 8).map (finalize 5 cnt mem 3)) = [0, 1, 20, 21, 22, 30, 40, 41] := by
  decide +kernel

end SST.Coll.Allgatherv
