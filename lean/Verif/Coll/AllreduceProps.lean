import Verif.Coll.AllreduceLemmas
/-!
C30: after an allreduce every rank holds the reduction of all contributions.
-/
set_option autoImplicit false
set_option linter.unusedSectionVars false
namespace SST.Coll.Allreduce
open SST.Coll

variable {V : Type}

section
variable (n e : Nat) (op : V → V → V)

theorem send_some {v i q : Nat} {x : Xfer} (h : (allreduce n e op).send v i q = some x) :
    q = partner v (mir (computeTree n).log2nproc i) ∧ shared n v q = false ∧
    x = (if i < (computeTree n).log2nproc then
        { buf := 0, off := (snd e v (mir (computeTree n).log2nproc i)).1, len := (snd e v (mir (computeTree n).log2nproc i)).2 }
      else { buf := 0, off := (win e v (mir (computeTree n).log2nproc i + 1)).1,
             len := (win e v (mir (computeTree n).log2nproc i + 1)).2 }) := by
  simp only [allreduce] at h
  split at h
  · rename_i hc
    refine ⟨hc.1, hc.2, ?_⟩
    split at h
    · rename_i hi; simp only [Option.some.injEq] at h; rw [← h, if_pos hi]
    · rename_i hi; simp only [Option.some.injEq] at h; rw [← h, if_neg hi]
  · simp at h

theorem recv_some {v i q : Nat} {x : Xfer} (h : (allreduce n e op).recv v i q = some x) :
    q = partner v (mir (computeTree n).log2nproc i) ∧ shared n v q = false ∧
    x = (if i < (computeTree n).log2nproc then
        { buf := 0, off := (win e v (mir (computeTree n).log2nproc i + 1)).1,
          len := (win e v (mir (computeTree n).log2nproc i + 1)).2, red := true }
      else { buf := 0, off := (snd e v (mir (computeTree n).log2nproc i)).1,
             len := (snd e v (mir (computeTree n).log2nproc i)).2 }) := by
  simp only [allreduce] at h
  split at h
  · rename_i hc
    refine ⟨hc.1, hc.2, ?_⟩
    split at h
    · rename_i hi; simp only [Option.some.injEq] at h; rw [← h, if_pos hi]
    · rename_i hi; simp only [Option.some.injEq] at h; rw [← h, if_neg hi]
  · simp at h

theorem send_eq {v i : Nat} (hs : shared n v (partner v (mir (computeTree n).log2nproc i)) = false) :
    (allreduce n e op).send v i (partner v (mir (computeTree n).log2nproc i)) =
      some (if i < (computeTree n).log2nproc then
        { buf := 0, off := (snd e v (mir (computeTree n).log2nproc i)).1, len := (snd e v (mir (computeTree n).log2nproc i)).2 }
      else { buf := 0, off := (win e v (mir (computeTree n).log2nproc i + 1)).1,
             len := (win e v (mir (computeTree n).log2nproc i + 1)).2 }) := by
  simp only [allreduce]
  rw [if_pos ⟨trivial, hs⟩]
  split <;> rfl

theorem recv_eq {v i : Nat} (hs : shared n v (partner v (mir (computeTree n).log2nproc i)) = false) :
    (allreduce n e op).recv v i (partner v (mir (computeTree n).log2nproc i)) =
      some (if i < (computeTree n).log2nproc then
        { buf := 0, off := (win e v (mir (computeTree n).log2nproc i + 1)).1,
          len := (win e v (mir (computeTree n).log2nproc i + 1)).2, red := true }
      else { buf := 0, off := (snd e v (mir (computeTree n).log2nproc i)).1,
             len := (snd e v (mir (computeTree n).log2nproc i)).2 }) := by
  simp only [allreduce]
  rw [if_pos ⟨trivial, hs⟩]
  split <;> rfl

variable (hn : 1 ≤ n)
include hn

theorem shared_symm {v q : Nat} (hv : v < (computeTree n).virtualNproc) (hq : q < (computeTree n).virtualNproc) :
    shared n v q = shared n q v := by
  rw [Bool.eq_iff_iff, shared_iff n hn v q hv hq, shared_iff n hn q v hq hv]
  exact ⟨Eq.symm, Eq.symm⟩

/-- All accesses of a virtual rank that shares its rank stay in its half. -/
theorem access_half {a : Act} {l : Loc} (ha : a ∈ (allreduce n e op).acts)
    (h : (allreduce n e op).writesB a l = true ∨ (allreduce n e op).touchB a l = true)
    (hs : (rankMap n).virtualToReal (partner a.p 0) = (rankMap n).virtualToReal a.p) :
    l.1 = (rankMap n).virtualToReal a.p ∧ InWin (win e a.p 1) l.2.2 := by
  obtain ⟨hp, hi, hq, hh⟩ := Rounds.mem_acts.mp ha
  obtain ⟨p, i, k, q⟩ := a
  obtain ⟨K, hK1, hK2, _⟩ := computeTree_spec n
  simp only at hp hi hq hs ⊢
  have hp' : p < (computeTree n).virtualNproc := hp
  have hq' : q < (computeTree n).virtualNproc := hq
  have key : ∀ j, q = partner p j → shared n p q = false → 1 ≤ j := by
    intro j hqj hsh
    refine Classical.byContradiction fun hj => ?_
    have hj0 : j = 0 := by omega
    subst hj0
    have := (shared_iff n hn p q hp' hq').mpr (by rw [hqj]; exact hs)
    rw [hsh] at this
    simp at this
  have sendcase : ∀ x, (allreduce n e op).send p i q = some x → Rounds.inX x ((rankMap n).virtualToReal p) l = true →
      l.1 = (rankMap n).virtualToReal p ∧ InWin (win e p 1) l.2.2 := by
    intro x hx hin
    obtain ⟨h1, h2, h3⟩ := send_some n e op hx
    have hj := key _ h1 h2
    subst h3
    split at hin
    · simp only [Rounds.inX, Bool.and_eq_true, beq_iff_eq, decide_eq_true_eq] at hin
      exact ⟨hin.1.1.1, inWin_mono e p _ hj ((inWin_split e p _ _).mpr (Or.inr ⟨hin.1.2, hin.2⟩))⟩
    · simp only [Rounds.inX, Bool.and_eq_true, beq_iff_eq, decide_eq_true_eq] at hin
      exact ⟨hin.1.1.1, inWin_mono e p _ (Nat.le_succ_of_le hj) ⟨hin.1.2, hin.2⟩⟩
  have recvcase : ∀ x, (allreduce n e op).recv p i q = some x → Rounds.inX x ((rankMap n).virtualToReal p) l = true →
      l.1 = (rankMap n).virtualToReal p ∧ InWin (win e p 1) l.2.2 := by
    intro x hx hin
    obtain ⟨h1, h2, h3⟩ := recv_some n e op hx
    have hj := key _ h1 h2
    subst h3
    split at hin
    · simp only [Rounds.inX, Bool.and_eq_true, beq_iff_eq, decide_eq_true_eq] at hin
      exact ⟨hin.1.1.1, inWin_mono e p _ (Nat.le_succ_of_le hj) ⟨hin.1.2, hin.2⟩⟩
    · simp only [Rounds.inX, Bool.and_eq_true, beq_iff_eq, decide_eq_true_eq] at hin
      exact ⟨hin.1.1.1, inWin_mono e p _ hj ((inWin_split e p _ _).mpr (Or.inr ⟨hin.1.2, hin.2⟩))⟩
  cases k with
  | send =>
    simp only [Rounds.writesB, Rounds.touchB, Bool.false_eq_true, false_or] at h
    cases hx : (allreduce n e op).send p i q with
    | none => rw [hx] at h; simp at h
    | some x => rw [hx] at h; exact sendcase x hx h
  | recv =>
    simp only [Rounds.writesB, Rounds.touchB, or_self] at h
    cases hx : (allreduce n e op).recv p i q with
    | none => rw [hx] at h; simp at h
    | some x => rw [hx] at h; exact recvcase x hx h
  | loc => simp [Rounds.writesB, Rounds.touchB, allreduce] at h

theorem access_rank {a : Act} {l : Loc}
    (h : (allreduce n e op).writesB a l = true ∨ (allreduce n e op).touchB a l = true) :
    l.1 = (rankMap n).virtualToReal a.p := by
  obtain ⟨p, i, k, q⟩ := a
  cases k with
  | send =>
    simp only [Rounds.writesB, Rounds.touchB, Bool.false_eq_true, false_or] at h
    cases hx : (allreduce n e op).send p i q with
    | none => rw [hx] at h; simp at h
    | some x =>
      rw [hx] at h
      simp only [Rounds.inX, Bool.and_eq_true, beq_iff_eq, decide_eq_true_eq] at h
      exact h.1.1.1
  | recv =>
    simp only [Rounds.writesB, Rounds.touchB, or_self] at h
    cases hx : (allreduce n e op).recv p i q with
    | none => rw [hx] at h; simp at h
    | some x =>
      rw [hx] at h
      simp only [Rounds.inX, Bool.and_eq_true, beq_iff_eq, decide_eq_true_eq] at h
      exact h.1.1.1
  | loc => simp [Rounds.writesB, Rounds.touchB, allreduce] at h

theorem allreduce_ok : (allreduce n e op).Ok := by
  obtain ⟨K, hK1, hK2, _⟩ := computeTree_spec n
  have hmir : ∀ i, i < 2 * K → mir K i < K := by
    intro i hi; unfold mir; split <;> omega
  refine ⟨?_, ?_, ?_, ?_, ?_, ?_, ?_⟩
  · -- matched
    intro p i q x hp hi hq h
    obtain ⟨h1, h2, h3⟩ := send_some n e op h
    rw [hK1] at h1 h3
    have hpq : partner q (mir K i) = p := by rw [h1, partner_partner]
    have hsh : shared n q (partner q (mir (computeTree n).log2nproc i)) = false := by
      rw [hK1, hpq, ← shared_symm n hn hp hq]; exact h2
    have := recv_eq n e op hsh
    rw [hK1, hpq] at this
    refine ⟨_, this, ?_⟩
    rw [h3]
    split
    · simp only
      have := win_partner_succ e p (mir K i)
      rw [← h1] at this
      rw [this]
    · simp only
      have := snd_partner e p (mir K i)
      rw [← h1] at this
      rw [this]
  · -- matched'
    intro p i q y hp hi hq h
    obtain ⟨h1, h2, _⟩ := recv_some n e op h
    rw [hK1] at h1
    have hpq : partner p (mir K i) = q := by rw [h1, partner_partner]
    have hsh : shared n p (partner p (mir (computeTree n).log2nproc i)) = false := by
      rw [hK1, hpq, shared_symm n hn hp hq]; exact h2
    have := send_eq n e op hsh
    rw [hK1, hpq] at this
    exact ⟨_, this⟩
  · -- tags
    intro p i q x hp hi hq h
    obtain ⟨h1, _, _⟩ := send_some n e op h
    rw [hK1] at h1
    have hi' : i < 2 * K := by simpa [allreduce, hK1] using hi
    simp only [allreduce, hK1]
    by_cases h0 : i = 0 ∨ i + 1 = 2 * K
    · have e1 : (i = 0 ∨ i + 1 = 2 * K ∨ p % 2 = 0) := by rcases h0 with h | h <;> simp [h]
      have e2 : (i = 0 ∨ i + 1 = 2 * K ∨ q % 2 = 0) := by rcases h0 with h | h <;> simp [h]
      rw [if_pos e1, if_pos e2]
    · have hj : 1 ≤ mir K i := by unfold mir; split <;> omega
      have hpar : q % 2 = p % 2 := by
        have hl := partner_low p (mir K i) 0 hj
        rw [← h1] at hl
        simp only [low, Nat.pow_zero, Nat.div_one] at hl
        have := Bool.eq_iff_iff.mp hl
        simp only [beq_iff_eq] at this
        omega
      rw [hpar]
  · -- keys
    intro p i q p' i' q' x x' hp hi hq hp' hi' hq' h h' hr hr' ht
    obtain ⟨h1, h2, _⟩ := recv_some n e op h
    obtain ⟨h1', h2', _⟩ := recv_some n e op h'
    rw [hK1] at h1 h1'
    have hi1 : i < 2 * K := by simpa [allreduce, hK1] using hi
    have hi1' : i' < 2 * K := by simpa [allreduce, hK1] using hi'
    simp only [allreduce, hK1] at ht hr hr'
    by_cases hpp : p = p'
    · subst hpp
      have hii : i = i' := by
        split at ht <;> split at ht <;> omega
      subst hii
      exact ⟨rfl, rfl, by rw [h1, h1']⟩
    · exfalso
      have hco := corank n hn p p' hpp hr
      have hco' := corank n hn p' p (Ne.symm hpp) hr.symm
      have hpar : (p % 2 = 0 ↔ ¬ p' % 2 = 0) := by
        rw [partner_zero] at hco
        split at hco <;> omega
      -- neither receives in the first or last round
      have first : ∀ a b j y, a < (computeTree n).virtualNproc → b < (computeTree n).virtualNproc →
          y < (computeTree n).virtualNproc →
          partner a 0 = b → (rankMap n).virtualToReal a = (rankMap n).virtualToReal b →
          y = partner a (mir K j) → shared n a y = false → ¬ (j = 0 ∨ j + 1 = 2 * K) := by
        intro a b j y hA hB hY hab hrab hy hsh hj
        have hm0 : mir K j = 0 := by unfold mir; split <;> omega
        rw [hm0, hab] at hy
        have := (shared_iff n hn a y hA hY).mpr (by rw [hy]; exact hrab.symm)
        rw [hsh] at this
        simp at this
      have f1 := first p p' i q hp hp' hq hco hr h1 h2
      have f2 := first p' p i' q' hp' hp hq' hco' hr.symm h1' h2'
      split at ht <;> split at ht <;> omega
  · -- sep
    intro a b l ha hb hne hw hu
    have hra := access_rank n e op hn (Or.inl hw)
    have hrb := access_rank n e op hn hu
    have hr : (rankMap n).virtualToReal a.p = (rankMap n).virtualToReal b.p := by rw [← hra, hrb]
    have hco := corank n hn a.p b.p hne hr
    have hco' := corank n hn b.p a.p (Ne.symm hne) hr.symm
    have h1 := (access_half n e op hn ha (Or.inl hw) (by rw [hco]; exact hr.symm)).2
    have h2 := (access_half n e op hn hb hu (by rw [hco']; exact hr)).2
    have := win_partner_succ e a.p 0
    rw [hco, Nat.zero_add] at this
    rw [this] at h2
    exact inWin_disj e a.p 0 _ h1 h2
  · -- round
    intro a b l ha hb hab hp hi hw hu
    obtain ⟨p, i, k, q⟩ := a
    obtain ⟨p', i', k', q'⟩ := b
    simp only at hp hi
    subst hp
    subst hi
    cases k with
    | send => simp [Rounds.writesB] at hw
    | loc => simp [Rounds.writesB, allreduce] at hw
    | recv =>
      simp only [Rounds.writesB] at hw
      cases hy : (allreduce n e op).recv p i q with
      | none => rw [hy] at hw; simp at hw
      | some y =>
        rw [hy] at hw
        obtain ⟨g1, g2, g3⟩ := recv_some n e op hy
        cases k' with
        | loc => simp [Rounds.writesB, Rounds.touchB, allreduce] at hu
        | recv =>
          simp only [Rounds.writesB, Rounds.touchB, or_self] at hu
          cases hy' : (allreduce n e op).recv p i q' with
          | none => rw [hy'] at hu; simp at hu
          | some y' =>
            obtain ⟨g1', _, _⟩ := recv_some n e op hy'
            apply hab
            rw [g1, g1']
        | send =>
          simp only [Rounds.writesB, Rounds.touchB, Bool.false_eq_true, false_or] at hu
          cases hx : (allreduce n e op).send p i q' with
          | none => rw [hx] at hu; simp at hu
          | some x =>
            rw [hx] at hu
            obtain ⟨f1, f2, f3⟩ := send_some n e op hx
            subst g3
            subst f3
            simp only [Rounds.inX, Bool.and_eq_true, beq_iff_eq, decide_eq_true_eq] at hw hu
            by_cases hik : i < (computeTree n).log2nproc
            · simp only [hik, if_true] at hw hu
              exact inWin_disj e p _ _ ⟨hw.1.2, hw.2⟩ ⟨hu.1.2, hu.2⟩
            · simp only [hik, if_false] at hw hu
              exact inWin_disj e p _ _ ⟨hu.1.2, hu.2⟩ ⟨hw.1.2, hw.2⟩
  · intro p i o M M' b x h
    simp [allreduce] at h

/-- Nothing is written in round `i` outside the regions the virtual ranks of that rank
receive. -/
theorem keep (M0 : Loc → V) (i r x : Nat)
    (h : ∀ w q y, w < (computeTree n).virtualNproc → (rankMap n).virtualToReal w = r →
      (allreduce n e op).recv w i q = some y → ¬ InWin (y.off, y.len) x) :
    (allreduce n e op).sync M0 (i + 1) (r, 0, x) = (allreduce n e op).sync M0 i (r, 0, x) := by
  apply Rounds.sync_keep
  intro a ha hi
  obtain ⟨hp, _, _, _⟩ := Rounds.mem_acts.mp ha
  rw [Bool.eq_false_iff]
  intro hw
  obtain ⟨p, i', k, q⟩ := a
  simp only at hi
  subst hi
  cases k with
  | send => simp [Rounds.writesB] at hw
  | loc => simp [Rounds.writesB, allreduce] at hw
  | recv =>
    simp only [Rounds.writesB] at hw
    cases hy : (allreduce n e op).recv p i' q with
    | none => rw [hy] at hw; simp at hw
    | some y =>
      rw [hy] at hw
      simp only [Rounds.inX, Bool.and_eq_true, beq_iff_eq, decide_eq_true_eq] at hw
      exact h p q y hp hw.1.1.1.symm hy ⟨hw.1.2, hw.2⟩

theorem fan_out (assoc : ∀ a b c, op (op a b) c = op a (op b c)) (comm : ∀ a b, op a b = op b a)
    (contrib : Nat → Nat → V) (i : Nat) (hi : i ≤ (computeTree n).log2nproc) :
    ∀ v x, v < (computeTree n).virtualNproc → InWin (win e v i) x →
      (allreduce n e op).sync (allreduceInit contrib) i ((rankMap n).virtualToReal v, 0, x) =
        blockRed n op (fun r => contrib r x) v i := by
  obtain ⟨K, hK1, hK2, _⟩ := computeTree_spec n
  induction i with
  | zero =>
    intro v x _ _
    rw [blockRed_zero]
    rfl
  | succ i ih =>
    intro v x hv hx
    have ih' := ih (by omega)
    have hiK : i < (computeTree n).log2nproc := by omega
    have hmir : mir (computeTree n).log2nproc i = i := by unfold mir; rw [if_pos hiK]
    have hxi : InWin (win e v i) x := inWin_mono e v x (Nat.le_succ i) hx
    have hpl : partner v i < (computeTree n).virtualNproc := by
      rw [hK2]; exact partner_lt v i K (by omega) (by rw [← hK2]; exact hv)
    by_cases hs : (rankMap n).virtualToReal (partner v i) = (rankMap n).virtualToReal v
    · -- the partner is the other virtual rank of the same rank
      have hi0 := shared_round n hn v i hs
      subst hi0
      rw [keep n e op hn, ih' v x hv hxi]
      · exact (blockRed_shared n op _ v hs).symm
      · intro w q y hw hr hy _
        obtain ⟨h1, h2, _⟩ := recv_some n e op hy
        rw [hmir] at h1
        have hql : q < (computeTree n).virtualNproc := by
          rw [h1, hK2]; exact partner_lt w 0 K (by omega) (by rw [← hK2]; exact hw)
        have hq : (rankMap n).virtualToReal q = (rankMap n).virtualToReal w := by
          rw [h1]
          by_cases hwv : w = v
          · subst hwv; exact hs
          · have := corank n hn w v hwv hr
            rw [this]; exact hr.symm
        have := (shared_iff n hn w q hw hql).mpr hq
        rw [h2] at this
        simp at this
    · have hsh : shared n v (partner v i) = false := by
        rw [Bool.eq_false_iff]
        intro h
        exact hs ((shared_iff n hn v _ hv hpl).mp h)
      have hrecv := recv_eq n e op (v := v) (i := i) (by rw [hmir]; exact hsh)
      have hsend := send_eq n e op (v := partner v i) (i := i)
        (by rw [hmir, partner_partner, ← shared_symm n hn hv hpl]; exact hsh)
      rw [hmir] at hrecv hsend
      rw [partner_partner] at hsend
      simp only [hiK, if_true] at hrecv hsend
      have hw1 := snd_partner e v i
      rw [hw1] at hsend
      obtain ⟨j, rfl⟩ : ∃ j, x = (win e v (i + 1)).1 + j := ⟨x - (win e v (i + 1)).1, by have := hx.1; omega⟩
      have hj : j < (win e v (i + 1)).2 := by have := hx.2; omega
      have := Rounds.sync_recv (allreduce_ok n e op hn) (allreduceInit contrib) (p := v) (i := i) (q := partner v i)
        hv (by simp only [allreduce]; omega) hpl hsend hrecv j hj
      refine Eq.trans this ?_
      simp only [if_true]
      have e1 := ih' v _ hv hxi
      have e2 := ih' (partner v i) ((win e v (i + 1)).1 + j) hpl (by rw [win_partner]; exact hxi)
      show op ((allreduce n e op).sync _ i ((rankMap n).virtualToReal v, 0, _))
        ((allreduce n e op).sync _ i ((rankMap n).virtualToReal (partner v i), 0, _)) = _
      rw [e1, e2]
      cases hl : low v (2 ^ i) with
      | true => exact blockRed_join n hn op assoc _ v i hs hl
      | false =>
        have hlp : low (partner v i) (2 ^ i) = true := by
          rcases partner_cases v i with ⟨h1, _, _⟩ | ⟨_, _, h3⟩
          · rw [h1] at hl; simp at hl
          · exact h3
        rw [comm]
        have hjn := blockRed_join n hn op assoc (fun r => contrib r ((win e v (i + 1)).1 + j)) (partner v i) i
          (by rw [partner_partner]; exact fun h => hs h.symm) hlp
        rw [partner_partner] at hjn
        rw [hjn]
        unfold blockRed blo bhi
        rw [partner_div]

theorem fan_in (M0 : Loc → V) (total : Nat → V)
    (h0 : ∀ v x, v < (computeTree n).virtualNproc → InWin (win e v (computeTree n).log2nproc) x →
      (allreduce n e op).sync M0 (computeTree n).log2nproc ((rankMap n).virtualToReal v, 0, x) = total x)
    (t : Nat) (ht : t ≤ (computeTree n).log2nproc) :
    ∀ v x, v < (computeTree n).virtualNproc → InWin (win e v ((computeTree n).log2nproc - t)) x →
      (allreduce n e op).sync M0 ((computeTree n).log2nproc + t) ((rankMap n).virtualToReal v, 0, x) = total x := by
  obtain ⟨K, hK1, hK2, _⟩ := computeTree_spec n
  rw [hK1] at h0 ht ⊢
  induction t with
  | zero => exact h0
  | succ t ih =>
    intro v x hv hx
    have ih' := ih (by omega)
    obtain ⟨j, hj⟩ : ∃ j, K - (t + 1) = j := ⟨_, rfl⟩
    have hj1 : K - t = j + 1 := by omega
    rw [hj] at hx
    rw [hj1] at ih'
    have hik : ¬ K + t < K := by omega
    have hmir : mir (computeTree n).log2nproc (K + t) = j := by
      rw [hK1]; unfold mir; rw [if_neg hik]; omega
    have hpl : partner v j < (computeTree n).virtualNproc := by
      rw [hK2]; exact partner_lt v j K (by omega) (by rw [← hK2]; exact hv)
    show (allreduce n e op).sync M0 (K + t + 1) _ = _
    by_cases hs : (rankMap n).virtualToReal (partner v j) = (rankMap n).virtualToReal v
    · have hj0 := shared_round n hn v j hs
      subst hj0
      rw [keep n e op hn]
      · -- the element is in the half of one of the two virtual ranks
        rcases (inWin_split e v 0 x).mp hx with h | h
        · exact ih' v x hv h
        · have := ih' (partner v 0) x hpl (by rw [win_partner_succ]; exact h)
          rw [hs] at this
          exact this
      · intro w q y hw hr hy _
        obtain ⟨h1, h2, _⟩ := recv_some n e op hy
        rw [hmir] at h1
        have hql : q < (computeTree n).virtualNproc := by
          rw [h1, hK2]; exact partner_lt w 0 K (by omega) (by rw [← hK2]; exact hw)
        have hq : (rankMap n).virtualToReal q = (rankMap n).virtualToReal w := by
          rw [h1]
          by_cases hwv : w = v
          · subst hwv; exact hs
          · have := corank n hn w v hwv hr
            rw [this]; exact hr.symm
        have := (shared_iff n hn w q hw hql).mpr hq
        rw [h2] at this
        simp at this
    · have hsh : shared n v (partner v j) = false := by
        rw [Bool.eq_false_iff]
        intro h
        exact hs ((shared_iff n hn v _ hv hpl).mp h)
      have hrecv := recv_eq n e op (v := v) (i := K + t) (by rw [hmir]; exact hsh)
      rcases (inWin_split e v j x).mp hx with h | h
      · -- already there
        rw [keep n e op hn, ih' v x hv h]
        intro w q y hw hr hy hin
        obtain ⟨g1, g2, g3⟩ := recv_some n e op hy
        rw [hmir] at g1 g3
        rw [hK1] at g3
        simp only [hik, if_false] at g3
        subst g3
        by_cases hwv : w = v
        · subst hwv
          exact inWin_disj e w j x h hin
        · -- the other virtual rank of this rank: its part is disjoint
          have hco := corank n hn w v hwv hr
          have hj1 : 1 ≤ j := by
            refine Classical.byContradiction fun hc => ?_
            have : j = 0 := by omega
            subst this
            apply hs
            have := corank n hn v w (Ne.symm hwv) hr.symm
            rw [this]; exact hr
          have hw1 : InWin (win e w 1) x := inWin_mono e w x hj1 ((inWin_split e w j x).mpr (Or.inr hin))
          have hv1 : InWin (win e v 1) x := inWin_mono e v x (by omega) h
          have hsp := win_partner_succ e w 0
          rw [hco, Nat.zero_add] at hsp
          rw [hsp] at hv1
          exact inWin_disj e w 0 x hw1 hv1
      · -- received in this round
        have hsend := send_eq n e op (v := partner v j) (i := K + t)
          (by rw [hmir, partner_partner, ← shared_symm n hn hv hpl]; exact hsh)
        rw [hmir, hK1] at hrecv hsend
        rw [partner_partner] at hsend
        simp only [hik, if_false] at hrecv hsend
        rw [win_partner_succ] at hsend
        obtain ⟨z, rfl⟩ : ∃ z, x = (snd e v j).1 + z := ⟨x - (snd e v j).1, by have := h.1; omega⟩
        have hz : z < (snd e v j).2 := by have := h.2; omega
        have := Rounds.sync_recv (allreduce_ok n e op hn) M0 (p := v) (i := K + t) (q := partner v j)
          hv (by simp only [allreduce]; omega) hpl hsend hrecv z hz
        refine Eq.trans this ?_
        simp only [Bool.false_eq_true, if_false]
        exact ih' (partner v j) _ hpl (by rw [win_partner_succ]; exact h)

end

/-- C30: for an associative and commutative operation, whatever the order and delay of
messages, the allreduce ends on all ranks, all messages are consumed, and every rank's
result buffer holds, in every element, the reduction of all contributions, each counted
exactly once. -/
theorem C30_allreduce (n e : Nat) (hn : 1 ≤ n) (op : V → V → V)
    (assoc : ∀ a b c, op (op a b) c = op a (op b c)) (comm : ∀ a b, op a b = op b a)
    (contrib : Nat → Nat → V) :
    Yields (allreduce n e op).sys (allreduceInit contrib)
      (fun mem => ∀ r x, r < n → x < e → mem (r, 0, x) = red op (fun r => contrib r x) 0 (n - 1)) := by
  apply Rounds.ends (allreduce_ok n e op hn)
  intro r x hr hx
  obtain ⟨K, hK1, hK2, _⟩ := computeTree_spec n
  have hout := fan_out n e op hn assoc comm contrib K (by omega)
  have hin := fan_in n e op hn (allreduceInit contrib) (fun x => red op (fun r => contrib r x) 0 (n - 1))
    (by
      rw [hK1]
      intro v x hv hxw
      rw [hout v x hv hxw]
      exact blockRed_all n hn op _ v K hK2 (by rw [← hK2]; exact hv))
    K (by omega)
  -- some virtual rank belongs to r
  obtain ⟨_, hmap, _⟩ := C38_virtual_ranks n hn
  have hlen := (C38_power_of_two n).2 r hr
  cases hl : (rankMap n).realToVirtual r with
  | nil => rw [hl] at hlen; simp at hlen
  | cons v vs =>
    obtain ⟨hv, hvr⟩ := (hmap r v hr).mp (by rw [hl]; simp)
    have := hin v x hv (by rw [hK1, Nat.sub_self]; exact ⟨Nat.zero_le _, by simp [win, hx]⟩)
    rw [hvr, hK1] at this
    show (allreduce n e op).sync _ (2 * (computeTree n).log2nproc) _ = _
    rw [hK1, Nat.two_mul]
    exact this

/-- Five ranks (eight virtual ranks, three ranks play two), three elements, addition. -/
example : (allreduce (V := Nat) 5 3 (· + ·)).T = 6 ∧ (allreduce (V := Nat) 5 3 (· + ·)).procs = 8 ∧
    (let mem := (allreduce 5 3 (· + ·)).sync (allreduceInit (fun r x => 10 ^ r * (x + 1))) 6
     (List.range 5).map (fun r => (List.range 3).map (fun x => mem (r, 0, x)))) =
    List.replicate 5 [11111, 22222, 33333] := by
  decide +kernel

end SST.Coll.Allreduce
