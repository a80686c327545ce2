import Verif.Coll.Reduce
import Verif.Coll.AllreduceProps
/-!
C33: reduce.  Right for root 0 at every size, and for every root unless the number of ranks
is one less than a power of two.
-/
set_option autoImplicit false
set_option linter.unusedSectionVars false
namespace SST.Coll.Reduce
open SST.Coll Allreduce

variable {V : Type}

/-- Two collectives that do the same in a round take the same step. -/
theorem sync_same {R R' : Rounds V} (ok : R.Ok) (ok' : R'.Ok) (M : Loc → V) (i : Nat)
    (hM : R.sync M i = R'.sync M i)
    (hm : ∀ a : Act, a.i = i → (a ∈ R.acts ↔ a ∈ R'.acts))
    (hw : ∀ (a : Act) l, a.i = i → R.writesB a l = R'.writesB a l)
    (he : ∀ (a : Act) pl m l, a.i = i → R.effF a pl m l = R'.effF a pl m l)
    (hr : ∀ a : Act, a.i = i → R.readsL (Rounds.peerF a) = R'.readsL (Rounds.peerF a)) :
    R.sync M (i + 1) = R'.sync M (i + 1) := by
  funext l
  by_cases hc : ∃ a ∈ R.acts, a.i = i ∧ R.writesB a l = true
  · obtain ⟨a, ha, rfl, hal⟩ := hc
    rw [Rounds.sync_write ok M ha hal,
      Rounds.sync_write ok' M ((hm a rfl).mp ha) (by rw [← hw a l rfl]; exact hal), hr a rfl, hM, he a _ _ l rfl]
  · have h1 : ∀ a ∈ R.acts, a.i = i → R.writesB a l = false := by
      intro a ha hi
      rw [Bool.eq_false_iff]
      exact fun h => hc ⟨a, ha, hi, h⟩
    rw [Rounds.sync_keep M i l h1, Rounds.sync_keep M i l, hM]
    intro a ha hi
    rw [← hw a l hi]
    exact h1 a ((hm a hi).mpr ha) hi

section
variable (n root e : Nat) (op : V → V → V)

theorem lowRole_eq (r : Nat) : lowRole n r =
    if r ≥ (computeTree n).virtualNproc - n then (computeTree n).virtualNproc - n + r else 2 * r := by
  have : ∀ m : RankMap, (m.realToVirtual r).headD 0 =
      if r ≥ m.virtualNproc - m.nproc then m.virtualNproc - m.nproc + r else 2 * r := by
    rintro ⟨a, b⟩
    simp only [RankMap.realToVirtual]
    by_cases h : r ≥ b - a <;> simp [h]
  exact this (rankMap n)

theorem upRole_eq (r : Nat) : upRole n r =
    if r ≥ (computeTree n).virtualNproc - n then (computeTree n).virtualNproc - n + r else 2 * r + 1 := by
  have : ∀ m : RankMap, (m.realToVirtual r).getLastD 0 =
      if r ≥ m.virtualNproc - m.nproc then m.virtualNproc - m.nproc + r else 2 * r + 1 := by
    rintro ⟨a, b⟩
    simp only [RankMap.realToVirtual]
    by_cases h : r ≥ b - a <;> simp [h]
  exact this (rankMap n)

variable (hn : 1 ≤ n)
include hn

theorem role_lt (r : Nat) (hr : r < n) : lowRole n r < (computeTree n).virtualNproc ∧
    upRole n r < (computeTree n).virtualNproc := by
  have hm := virtualNproc_lt n hn
  rw [lowRole_eq, upRole_eq]
  split <;> omega

theorem role_real (r : Nat) (hr : r < n) : (rankMap n).virtualToReal (lowRole n r) = r ∧
    (rankMap n).virtualToReal (upRole n r) = r := by
  have hm := virtualNproc_lt n hn
  rw [lowRole_eq, upRole_eq]
  simp only [RankMap.virtualToReal, rankMap]
  constructor <;> (split <;> split <;> omega)

/-- With two virtual ranks the lower one is even and the upper one odd. -/
theorem role_parity (r : Nat) (hr : r < n) (v w : Nat) (hne : v ≠ w)
    (h1 : (rankMap n).virtualToReal v = r) (h2 : (rankMap n).virtualToReal w = r) :
    lowRole n r % 2 = 0 ∧ upRole n r = lowRole n r + 1 := by
  have hm := virtualNproc_lt n hn
  have key : ∀ a b, a < b → (rankMap n).virtualToReal a = r → (rankMap n).virtualToReal b = r →
      r < (computeTree n).virtualNproc - n := by
    have gen : ∀ m : RankMap, m.nproc ≤ m.virtualNproc ∧ m.virtualNproc < 2 * m.nproc → ∀ a b, a < b →
        m.virtualToReal a = r → m.virtualToReal b = r → r < m.virtualNproc - m.nproc := by
      rintro ⟨c, d⟩ hm a b hab ha hb
      simp only [RankMap.virtualToReal] at ha hb hm ⊢
      split at ha <;> split at hb <;> omega
    exact gen (rankMap n) hm
  have : r < (computeTree n).virtualNproc - n := by
    rcases Nat.lt_or_gt_of_ne hne with h | h
    · exact key v w h h1 h2
    · exact key w v h h2 h1
  rw [lowRole_eq, upRole_eq, if_neg (by omega), if_neg (by omega)]
  omega

theorem final_some {v q : Nat} {x : Xfer} (h : final n root e v q = some x) :
    root ≠ 0 ∧ ((v = lowRole n 0 ∧ q = lowRole n root ∧ x = { buf := 0, off := 0, len := split e }) ∨
      (root ≠ 1 ∧ v = upRole n 1 ∧ q = upRole n root ∧ x = { buf := 0, off := split e, len := e - split e })) := by
  unfold final finals at h
  split at h
  · simp at h
  · rename_i hr
    refine ⟨hr, ?_⟩
    split at h
    · simp only [List.find?_cons, List.find?_nil] at h
      split at h
      · rename_i hc
        simp only [Bool.and_eq_true, beq_iff_eq] at hc
        simp only [Option.map_some, Option.some.injEq] at h
        exact Or.inl ⟨hc.1.symm, hc.2.symm, h.symm⟩
      · simp at h
    · rename_i hr1
      simp only [List.find?_cons, List.find?_nil] at h
      split at h
      · rename_i hc
        simp only [Bool.and_eq_true, beq_iff_eq] at hc
        simp only [Option.map_some, Option.some.injEq] at h
        exact Or.inl ⟨hc.1.symm, hc.2.symm, h.symm⟩
      · split at h
        · rename_i hc
          simp only [Bool.and_eq_true, beq_iff_eq] at hc
          simp only [Option.map_some, Option.some.injEq] at h
          exact Or.inr ⟨hr1, hc.1.symm, hc.2.symm, h.symm⟩
        · simp at h

theorem final_low (h0 : root ≠ 0) :
    final n root e (lowRole n 0) (lowRole n root) = some { buf := 0, off := 0, len := split e } := by
  unfold final finals
  rw [if_neg h0, List.find?_cons_of_pos (by simp)]
  rfl

theorem final_up (h0 : root ≠ 0) (h1 : root ≠ 1) (hr : root < n) :
    final n root e (upRole n 1) (upRole n root) = some { buf := 0, off := split e, len := e - split e } := by
  have hne : lowRole n 0 ≠ upRole n 1 := by
    intro h
    have a := (role_real n hn 0 (by omega)).1
    have b := (role_real n hn 1 (by omega)).2
    rw [h] at a
    omega
  unfold final finals
  rw [if_neg h0, if_neg h1, List.find?_cons_of_neg (by simp [hne]), List.find?_cons_of_pos (by simp)]
  rfl

variable (hr : root < n)
include hr

theorem active_partner (v i : Nat) :
    active (computeTree n).log2nproc root (partner v (mir (computeTree n).log2nproc i)) i =
      active (computeTree n).log2nproc root v i := by
  unfold active
  congr 2
  rw [decide_eq_decide]
  generalize mir (computeTree n).log2nproc i = j
  constructor
  · intro h
    have := partner_lt _ j (j + 1) (by omega) h
    rw [partner_partner] at this
    exact this
  · exact partner_lt v j (j + 1) (by omega)

theorem acts_early {a : Act} (hi : a.i < 2 * (computeTree n).log2nproc) (ha : a ∈ (reduce n root e op).acts) :
    a ∈ (allreduce n e op).acts ∧ active (computeTree n).log2nproc root a.p a.i = true := by
  obtain ⟨h1, _, h3, h4⟩ := Rounds.mem_acts.mp ha
  obtain ⟨p, i, k, q⟩ := a
  simp only at hi
  have key : active (computeTree n).log2nproc root p i = true := by
    cases k <;> simp only [Rounds.has, reduce, hi, if_true] at h4
    · split at h4
      · assumption
      · simp at h4
    · split at h4
      · assumption
      · simp at h4
    · simp at h4
  refine ⟨Rounds.mem_acts.mpr ⟨h1, hi, h3, ?_⟩, key⟩
  cases k <;> simp only [Rounds.has, reduce, hi, if_true, key] at h4 ⊢
  · exact h4
  · exact h4
  · simp at h4

theorem early_eq (p i q : Nat) (hi : i < 2 * (computeTree n).log2nproc)
    (ha : active (computeTree n).log2nproc root p i = true) :
    (reduce n root e op).send p i q = (allreduce n e op).send p i q ∧
    (reduce n root e op).recv p i q = (allreduce n e op).recv p i q := by
  simp only [reduce, hi, if_true, ha]
  exact ⟨trivial, trivial⟩

theorem early_access {a : Act} (hi : a.i < 2 * (computeTree n).log2nproc)
    (ha : active (computeTree n).log2nproc root a.p a.i = true) (l : Loc) :
    (reduce n root e op).writesB a l = (allreduce n e op).writesB a l ∧
    (reduce n root e op).touchB a l = (allreduce n e op).touchB a l := by
  obtain ⟨h1, h2⟩ := early_eq n root e op hn hr a.p a.i a.q hi ha
  have h3 : (reduce n root e op).loc a.p a.i = none := rfl
  have h4 : (allreduce n e op).loc a.p a.i = none := rfl
  have h5 : (reduce n root e op).real a.p = (allreduce n e op).real a.p := rfl
  simp only [Rounds.writesB, Rounds.touchB, h1, h2, h3, h4, h5]
  exact ⟨trivial, trivial⟩

/-- The sends and receives of the last round. -/
theorem late_eq (p q : Nat) :
    (reduce n root e op).send p (2 * (computeTree n).log2nproc) q = final n root e p q ∧
    (reduce n root e op).recv p (2 * (computeTree n).log2nproc) q = final n root e q p := by
  simp only [reduce, Nat.lt_irrefl, if_false]
  exact ⟨trivial, trivial⟩

theorem log_pos (h0 : root ≠ 0) : 1 ≤ (computeTree n).log2nproc := by
  obtain ⟨K, h1, _, _, h4, _⟩ := computeTree_spec n
  rw [h1]
  cases K with
  | zero => simp at h4; omega
  | succ K => omega

theorem access_rank {a : Act} {l : Loc}
    (h : (reduce n root e op).writesB a l = true ∨ (reduce n root e op).touchB a l = true) :
    l.1 = (rankMap n).virtualToReal a.p := by
  obtain ⟨p, i, k, q⟩ := a
  cases k with
  | send =>
    simp only [Rounds.writesB, Rounds.touchB, Bool.false_eq_true, false_or] at h
    cases hx : (reduce n root e op).send p i q with
    | none => rw [hx] at h; simp at h
    | some x =>
      rw [hx] at h
      simp only [Rounds.inX, Bool.and_eq_true, beq_iff_eq, decide_eq_true_eq] at h
      exact h.1.1.1
  | recv =>
    simp only [Rounds.writesB, Rounds.touchB, or_self] at h
    cases hx : (reduce n root e op).recv p i q with
    | none => rw [hx] at h; simp at h
    | some x =>
      rw [hx] at h
      simp only [Rounds.inX, Bool.and_eq_true, beq_iff_eq, decide_eq_true_eq] at h
      exact h.1.1.1
  | loc => simp [Rounds.writesB, Rounds.touchB, reduce] at h

theorem win_even (v : Nat) (h : v % 2 = 0) : win e v 1 = (0, split e) := by
  have : low v (2 ^ 0) = true := by simp [low, h]
  simp only [win, this, if_true, split, Prod.mk.injEq, true_and]
  omega

theorem win_odd (v : Nat) (h : v % 2 = 1) : win e v 1 = (split e, e - split e) := by
  have : low v (2 ^ 0) = false := by simp [low, h]
  simp only [win, this, split, Bool.false_eq_true, if_false, Nat.zero_add]

/-- All accesses of a virtual rank that shares its rank stay in its half. -/
theorem access_half {a : Act} {l : Loc} (ha : a ∈ (reduce n root e op).acts)
    (h : (reduce n root e op).writesB a l = true ∨ (reduce n root e op).touchB a l = true)
    (hs : (rankMap n).virtualToReal (partner a.p 0) = (rankMap n).virtualToReal a.p) :
    InWin (win e a.p 1) l.2.2 := by
  by_cases hi : a.i < 2 * (computeTree n).log2nproc
  · obtain ⟨h1, h2⟩ := acts_early n root e op hn hr hi ha
    have := early_access n root e op hn hr hi h2 l
    rw [this.1, this.2] at h
    exact (Allreduce.access_half n e op hn h1 h hs).2
  · obtain ⟨hp, hiT, hq, _⟩ := Rounds.mem_acts.mp ha
    obtain ⟨p, i, k, q⟩ := a
    simp only at hi hs hp hq hiT ⊢
    have hi' : i = 2 * (computeTree n).log2nproc := by
      have : i < 2 * (computeTree n).log2nproc + 1 := hiT
      omega
    subst hi'
    obtain ⟨e1, e2⟩ := late_eq n root e op hn hr p q
    -- the process is the lower or upper role of its rank
    have key : ∀ r, r < n → (p = lowRole n r → InWin (0, split e) l.2.2 → InWin (win e p 1) l.2.2) ∧
        (p = upRole n r → InWin (split e, e - split e) l.2.2 → InWin (win e p 1) l.2.2) := by
      intro r hrn
      have hrr := role_real n hn r hrn
      constructor
      · intro hp' hw
        have hpr : (rankMap n).virtualToReal p = r := by rw [hp']; exact hrr.1
        have := role_parity n hn r hrn p (partner p 0) (Ne.symm (partner_ne p 0)) hpr (by rw [hs]; exact hpr)
        rw [win_even n root e hn hr p (by rw [hp']; exact this.1)]
        exact hw
      · intro hp' hw
        have hpr : (rankMap n).virtualToReal p = r := by rw [hp']; exact hrr.2
        have := role_parity n hn r hrn p (partner p 0) (Ne.symm (partner_ne p 0)) hpr (by rw [hs]; exact hpr)
        rw [win_odd n root e hn hr p (by rw [hp', this.2]; omega)]
        exact hw
    cases k with
    | send =>
      simp only [Rounds.writesB, Rounds.touchB, Bool.false_eq_true, false_or, e1] at h
      cases hx : final n root e p q with
      | none => rw [hx] at h; simp at h
      | some x =>
        rw [hx] at h
        obtain ⟨hr0, hc⟩ := final_some n root e hn hx
        rcases hc with ⟨h1, _, rfl⟩ | ⟨_, h1, _, rfl⟩ <;>
          simp only [Rounds.inX, Bool.and_eq_true, beq_iff_eq, decide_eq_true_eq] at h
        · exact (key 0 (by omega)).1 h1 ⟨h.1.2, h.2⟩
        · exact (key 1 (by omega)).2 h1 ⟨h.1.2, h.2⟩
    | recv =>
      simp only [Rounds.writesB, Rounds.touchB, or_self, e2] at h
      cases hx : final n root e q p with
      | none => rw [hx] at h; simp at h
      | some x =>
        rw [hx] at h
        obtain ⟨hr0, hc⟩ := final_some n root e hn hx
        rcases hc with ⟨_, h1, rfl⟩ | ⟨_, _, h1, rfl⟩ <;>
          simp only [Rounds.inX, Bool.and_eq_true, beq_iff_eq, decide_eq_true_eq] at h
        · exact (key root hr).1 h1 ⟨h.1.2, h.2⟩
        · exact (key root hr).2 h1 ⟨h.1.2, h.2⟩
    | loc => simp [Rounds.writesB, Rounds.touchB, reduce] at h

theorem reduce_ok : (reduce n root e op).Ok := by
  have A := allreduce_ok n e op hn
  have hT : ∀ i, i < (reduce n root e op).T → i < 2 * (computeTree n).log2nproc ∨ i = 2 * (computeTree n).log2nproc := by
    intro i hi
    have : i < 2 * (computeTree n).log2nproc + 1 := hi
    omega
  -- early sends and receives are those of allreduce
  have es : ∀ p i q x, i < 2 * (computeTree n).log2nproc → (reduce n root e op).send p i q = some x →
      active (computeTree n).log2nproc root p i = true ∧ (allreduce n e op).send p i q = some x := by
    intro p i q x hi h
    simp only [reduce, hi, if_true] at h
    split at h
    · exact ⟨by assumption, h⟩
    · simp at h
  have er : ∀ p i q x, i < 2 * (computeTree n).log2nproc → (reduce n root e op).recv p i q = some x →
      active (computeTree n).log2nproc root p i = true ∧ (allreduce n e op).recv p i q = some x := by
    intro p i q x hi h
    simp only [reduce, hi, if_true] at h
    split at h
    · exact ⟨by assumption, h⟩
    · simp at h
  have ls : ∀ p q, (reduce n root e op).send p (2 * (computeTree n).log2nproc) q = final n root e p q :=
    fun p q => (late_eq n root e op hn hr p q).1
  have lr : ∀ p q, (reduce n root e op).recv p (2 * (computeTree n).log2nproc) q = final n root e q p :=
    fun p q => (late_eq n root e op hn hr p q).2
  have rr := role_real n hn
  refine ⟨?_, ?_, ?_, ?_, ?_, ?_, ?_⟩
  · -- matched
    intro p i q x hp hi hq h
    rcases hT i hi with hi' | rfl
    · obtain ⟨ha, hs⟩ := es p i q x hi' h
      obtain ⟨y, hy, hlen⟩ := A.matched p i q x hp hi' hq hs
      refine ⟨y, ?_, hlen⟩
      have hq' := (send_some n e op hs).1
      have := early_eq n root e op hn hr q i p hi'
        (by rw [hq', active_partner n root hn hr]; exact ha)
      rw [this.2]
      exact hy
    · rw [ls] at h
      exact ⟨x, by rw [lr]; exact h, rfl⟩
  · -- matched'
    intro p i q y hp hi hq h
    rcases hT i hi with hi' | rfl
    · obtain ⟨ha, hs⟩ := er q i p y hi' h
      obtain ⟨x, hx⟩ := A.matched' p i q y hp hi' hq hs
      refine ⟨x, ?_⟩
      have hp' := (recv_some n e op hs).1
      have := early_eq n root e op hn hr p i q hi'
        (by rw [hp', active_partner n root hn hr]; exact ha)
      rw [this.1]
      exact hx
    · rw [lr] at h
      exact ⟨y, by rw [ls]; exact h⟩
  · -- tags
    intro p i q x hp hi hq h
    rcases hT i hi with hi' | rfl
    · obtain ⟨_, hs⟩ := es p i q x hi' h
      have := A.tags p i q x hp hi' hq hs
      simp only [reduce]
      rw [if_neg (by omega), if_neg (by omega)]
      exact this
    · simp only [reduce, if_true]
  · -- keys
    intro p i q p' i' q' x x' hp hi hq hp' hi' hq' h h' hr1 hr2 ht
    have tagE : ∀ v j, j < 2 * (computeTree n).log2nproc → (reduce n root e op).tag v j = (allreduce n e op).tag v j := by
      intro v j hj
      simp only [reduce]
      rw [if_neg (by omega)]
    have tagL : ∀ v, (reduce n root e op).tag v (2 * (computeTree n).log2nproc) = 4 * (computeTree n).log2nproc - 1 := by
      intro v
      simp only [reduce, if_true]
    have small : ∀ v j, j < 2 * (computeTree n).log2nproc → (allreduce n e op).tag v j < 4 * (computeTree n).log2nproc - 1 := by
      intro v j hj
      simp only [allreduce]
      split <;> omega
    rcases hT i hi with hi1 | rfl <;> rcases hT i' hi' with hi1' | rfl
    · obtain ⟨_, g⟩ := er p i q x hi1 h
      obtain ⟨_, g'⟩ := er p' i' q' x' hi1' h'
      rw [tagE p i hi1, tagE p' i' hi1'] at ht
      exact A.keys p i q p' i' q' x x' hp hi1 hq hp' hi1' hq' g g' hr1 hr2 ht
    · rw [tagE p i hi1, tagL] at ht
      have := small p i hi1
      omega
    · rw [tagE p' i' hi1', tagL] at ht
      have := small p' i' hi1'
      omega
    · rw [lr] at h h'
      obtain ⟨h0, c⟩ := final_some n root e hn h
      obtain ⟨_, c'⟩ := final_some n root e hn h'
      have hr2' : (rankMap n).virtualToReal q = (rankMap n).virtualToReal q' := hr2
      rcases c with ⟨c1, c2, _⟩ | ⟨hr1', c1, c2, _⟩ <;> rcases c' with ⟨d1, d2, _⟩ | ⟨hr1'', d1, d2, _⟩
      · exact ⟨by rw [c2, d2], rfl, by rw [c1, d1]⟩
      · have := (rr 0 (by omega)).1
        have := (rr 1 (by omega)).2
        rw [c1, d1] at hr2'
        omega
      · have := (rr 0 (by omega)).1
        have := (rr 1 (by omega)).2
        rw [c1, d1] at hr2'
        omega
      · exact ⟨by rw [c2, d2], rfl, by rw [c1, d1]⟩
  · -- sep
    intro a b l ha hb hne hw hu
    have hra := access_rank n root e op hn hr (Or.inl hw)
    have hrb := access_rank n root e op hn hr hu
    have hrr : (rankMap n).virtualToReal a.p = (rankMap n).virtualToReal b.p := by rw [← hra, hrb]
    have hco := corank n hn a.p b.p hne hrr
    have hco' := corank n hn b.p a.p (Ne.symm hne) hrr.symm
    have h1 := access_half n root e op hn hr ha (Or.inl hw) (by rw [hco]; exact hrr.symm)
    have h2 := access_half n root e op hn hr hb hu (by rw [hco']; exact hrr)
    have := win_partner_succ e a.p 0
    rw [hco, Nat.zero_add] at this
    rw [this] at h2
    exact inWin_disj e a.p 0 _ h1 h2
  · -- round
    intro a b l ha hb hab hp hi hw hu
    rcases hT a.i (Rounds.mem_acts.mp ha).2.1 with hi' | hi'
    · obtain ⟨a1, a2⟩ := acts_early n root e op hn hr hi' ha
      obtain ⟨b1, b2⟩ := acts_early n root e op hn hr (by rw [← hi]; exact hi') hb
      have ea := early_access n root e op hn hr hi' a2 l
      have eb := early_access n root e op hn hr (by rw [← hi]; exact hi') b2 l
      rw [ea.1] at hw
      rw [eb.1, eb.2] at hu
      exact A.round a b l a1 b1 hab hp hi hw hu
    · obtain ⟨p, i, k, q⟩ := a
      obtain ⟨p', i2, k', q'⟩ := b
      simp only at hp hi hi'
      subst hp
      subst hi
      subst hi'
      have sp := (rr 0 (by omega)).1
      cases k with
      | send => simp [Rounds.writesB] at hw
      | loc => simp [Rounds.writesB, reduce] at hw
      | recv =>
        simp only [Rounds.writesB, lr] at hw
        cases hy : final n root e q p with
        | none => rw [hy] at hw; simp at hw
        | some y =>
          rw [hy] at hw
          simp only [Rounds.inX, Bool.and_eq_true, beq_iff_eq, decide_eq_true_eq] at hw
          obtain ⟨h0, c⟩ := final_some n root e hn hy
          cases k' with
          | loc => simp [Rounds.writesB, Rounds.touchB, reduce] at hu
          | recv =>
            simp only [Rounds.writesB, Rounds.touchB, or_self, lr] at hu
            cases hy' : final n root e q' p with
            | none => rw [hy'] at hu; simp at hu
            | some y' =>
              rw [hy'] at hu
              simp only [Rounds.inX, Bool.and_eq_true, beq_iff_eq, decide_eq_true_eq] at hu
              obtain ⟨_, c'⟩ := final_some n root e hn hy'
              rcases c with ⟨c1, c2, c3⟩ | ⟨_, c1, c2, c3⟩ <;> rcases c' with ⟨d1, d2, d3⟩ | ⟨_, d1, d2, d3⟩
              · apply hab; rw [c1, d1]
              · rw [c3] at hw; rw [d3] at hu; simp only at hw hu; omega
              · rw [c3] at hw; rw [d3] at hu; simp only at hw hu; omega
              · apply hab; rw [c1, d1]
          | send =>
            -- the root does not send in the last step
            simp only [Rounds.writesB, Rounds.touchB, Bool.false_eq_true, false_or, ls] at hu
            cases hx : final n root e p q' with
            | none => rw [hx] at hu; simp at hu
            | some x =>
              obtain ⟨_, d⟩ := final_some n root e hn hx
              have e1 : (rankMap n).virtualToReal p = root := by
                rcases c with ⟨_, c2, _⟩ | ⟨_, _, c2, _⟩
                · rw [c2]; exact (rr root hr).1
                · rw [c2]; exact (rr root hr).2
              rcases d with ⟨d1, _, _⟩ | ⟨d0, d1, _, _⟩
              · rw [d1] at e1; omega
              · rw [d1] at e1
                have := (rr 1 (by omega)).2
                omega
  · intro p i o M M' b x h
    simp [reduce] at h

/-- Up to the end of the halving phase reduce and allreduce do the same. -/
theorem sync_halving (M0 : Loc → V) (i : Nat) (hi : i ≤ (computeTree n).log2nproc) :
    (reduce n root e op).sync M0 i = (allreduce n e op).sync M0 i := by
  induction i with
  | zero => rfl
  | succ i ih =>
    have hact : ∀ v, active (computeTree n).log2nproc root v i = true := by
      intro v
      have h : i < (computeTree n).log2nproc := by omega
      simp only [active, h, decide_true, Bool.true_or]
    have hi2 : i < 2 * (computeTree n).log2nproc := by omega
    have hs : ∀ p q, (reduce n root e op).send p i q = (allreduce n e op).send p i q :=
      fun p q => (early_eq n root e op hn hr p i q hi2 (hact p)).1
    have hrc : ∀ p q, (reduce n root e op).recv p i q = (allreduce n e op).recv p i q :=
      fun p q => (early_eq n root e op hn hr p i q hi2 (hact p)).2
    apply sync_same (reduce_ok n root e op hn hr) (allreduce_ok n e op hn) M0 i (ih (by omega))
    · rintro ⟨p, i', k, q⟩ hai
      simp only at hai
      subst hai
      constructor
      · intro ha
        exact (acts_early n root e op hn hr hi2 ha).1
      · intro ha
        obtain ⟨h1, h2, h3, h4⟩ := Rounds.mem_acts.mp ha
        refine Rounds.mem_acts.mpr ⟨h1, ?_, h3, ?_⟩
        · show i' < 2 * (computeTree n).log2nproc + 1
          omega
        · cases k <;> simp only [Rounds.has, hs, hrc] at h4 ⊢
          · exact h4
          · exact h4
          · exact h4
    · rintro ⟨p, i', k, q⟩ l hai
      simp only at hai
      subst hai
      exact (early_access n root e op hn hr hi2 (hact p) l).1
    · rintro ⟨p, i', k, q⟩ pl m l hai
      simp only at hai
      subst hai
      simp only [Rounds.effF, hrc]
      rfl
    · rintro ⟨p, i', k, q⟩ hai
      simp only at hai
      subst hai
      cases k <;> simp only [Rounds.readsL, Rounds.peerF, hs] <;> rfl

/-- Nothing is written in round `i` outside the regions the virtual ranks of that rank
receive. -/
theorem keep (M0 : Loc → V) (i r x : Nat)
    (h : ∀ w q y, w < (computeTree n).virtualNproc → (rankMap n).virtualToReal w = r →
      (reduce n root e op).recv w i q = some y → ¬ InWin (y.off, y.len) x) :
    (reduce n root e op).sync M0 (i + 1) (r, 0, x) = (reduce n root e op).sync M0 i (r, 0, x) := by
  apply Rounds.sync_keep
  intro a ha hi
  obtain ⟨hp, _, _, _⟩ := Rounds.mem_acts.mp ha
  rw [Bool.eq_false_iff]
  intro hw
  obtain ⟨p, i', k, q⟩ := a
  simp only at hi
  subst hi
  cases k with
  | send => simp [Rounds.writesB] at hw
  | loc => simp [Rounds.writesB, reduce] at hw
  | recv =>
    simp only [Rounds.writesB] at hw
    cases hy : (reduce n root e op).recv p i' q with
    | none => rw [hy] at hw; simp at hw
    | some y =>
      rw [hy] at hw
      simp only [Rounds.inX, Bool.and_eq_true, beq_iff_eq, decide_eq_true_eq] at hw
      exact h p q y hp hw.1.1.1.symm hy ⟨hw.1.2, hw.2⟩

theorem fan_in (M0 : Loc → V) (total : Nat → V)
    (h0 : ∀ v x, v < (computeTree n).virtualNproc → InWin (win e v (computeTree n).log2nproc) x →
      (reduce n root e op).sync M0 (computeTree n).log2nproc ((rankMap n).virtualToReal v, 0, x) = total x)
    (t : Nat) (ht : t ≤ (computeTree n).log2nproc) (ht' : root ≠ 0 → t < (computeTree n).log2nproc) :
    ∀ v x, v < (computeTree n).virtualNproc → v < 2 ^ ((computeTree n).log2nproc - t + 1) →
      InWin (win e v ((computeTree n).log2nproc - t)) x →
      (reduce n root e op).sync M0 ((computeTree n).log2nproc + t) ((rankMap n).virtualToReal v, 0, x) = total x := by
  obtain ⟨K, hK1, hK2, _⟩ := computeTree_spec n
  rw [hK1] at h0 ht ht' ⊢
  induction t with
  | zero => exact fun v x hv _ => h0 v x hv
  | succ t ih =>
    intro v x hv hvj hx
    have ih' := ih (by intro h; have := ht' h; omega) (by omega)
    obtain ⟨j, hj⟩ : ∃ j, K - (t + 1) = j := ⟨_, rfl⟩
    have hj1 : K - t = j + 1 := by omega
    rw [hj] at hx hvj
    rw [hj1] at ih'
    have hik : ¬ K + t < K := by omega
    have hmir : mir (computeTree n).log2nproc (K + t) = j := by
      rw [hK1]; unfold mir; rw [if_neg hik]; omega
    have hi2 : K + t < 2 * (computeTree n).log2nproc := by omega
    have hpl' : partner v j < 2 ^ (j + 1) := partner_lt v j (j + 1) (by omega) hvj
    have hpow : 2 ^ (j + 1) ≤ 2 ^ (j + 1 + 1) := Nat.pow_le_pow_right (by omega) (by omega)
    have hpl : partner v j < (computeTree n).virtualNproc := by
      rw [hK2]; exact partner_lt v j K (by omega) (by rw [← hK2]; exact hv)
    have hactive : ∀ w, w < 2 ^ (j + 1) → active (computeTree n).log2nproc root w (K + t) = true := by
      intro w hw
      have : root = 0 ∨ j ≠ 0 := by
        by_cases hr0 : root = 0
        · exact Or.inl hr0
        · exact Or.inr (by have := ht' hr0; omega)
      simp only [active, hmir, hw, decide_true, Bool.true_and, Bool.or_eq_true, decide_eq_true_eq, beq_iff_eq,
        bne_iff_ne, ne_eq]
      exact Or.inr this
    have er : ∀ p q x, (reduce n root e op).recv p (K + t) q = some x → (allreduce n e op).recv p (K + t) q = some x := by
      intro p q x h
      simp only [reduce, hi2, if_true] at h
      split at h
      · exact h
      · simp at h
    show (reduce n root e op).sync M0 (K + t + 1) _ = _
    by_cases hs : (rankMap n).virtualToReal (partner v j) = (rankMap n).virtualToReal v
    · have hj0 := shared_round n hn v j hs
      subst hj0
      rw [keep n root e op hn hr]
      · rcases (inWin_split e v 0 x).mp hx with h | h
        · exact ih' v x hv (by omega) h
        · have := ih' (partner v 0) x hpl (by omega) (by rw [win_partner_succ]; exact h)
          rw [hs] at this
          exact this
      · intro w q y hw hrw hy _
        obtain ⟨h1, h2, _⟩ := recv_some n e op (er _ _ _ hy)
        rw [hmir] at h1
        have hql : q < (computeTree n).virtualNproc := by
          rw [h1, hK2]; exact partner_lt w 0 K (by omega) (by rw [← hK2]; exact hw)
        have hq : (rankMap n).virtualToReal q = (rankMap n).virtualToReal w := by
          rw [h1]
          by_cases hwv : w = v
          · subst hwv; exact hs
          · have := corank n hn w v hwv hrw
            rw [this]; exact hrw.symm
        have := (shared_iff n hn w q hw hql).mpr hq
        rw [h2] at this
        simp at this
    · have hsh : shared n v (partner v j) = false := by
        rw [Bool.eq_false_iff]
        intro h
        exact hs ((shared_iff n hn v _ hv hpl).mp h)
      have hrecv := recv_eq n e op (v := v) (i := K + t) (by rw [hmir]; exact hsh)
      rcases (inWin_split e v j x).mp hx with h | h
      · rw [keep n root e op hn hr, ih' v x hv (by omega) h]
        intro w q y hw hrw hy hin
        obtain ⟨g1, g2, g3⟩ := recv_some n e op (er _ _ _ hy)
        rw [hmir] at g1 g3
        rw [hK1] at g3
        simp only [hik, if_false] at g3
        subst g3
        by_cases hwv : w = v
        · subst hwv
          exact inWin_disj e w j x h hin
        · have hco := corank n hn w v hwv hrw
          have hj1 : 1 ≤ j := by
            refine Classical.byContradiction fun hc => ?_
            have : j = 0 := by omega
            subst this
            apply hs
            have := corank n hn v w (Ne.symm hwv) hrw.symm
            rw [this]; exact hrw
          have hw1 : InWin (win e w 1) x := inWin_mono e w x hj1 ((inWin_split e w j x).mpr (Or.inr hin))
          have hv1 : InWin (win e v 1) x := inWin_mono e v x (by omega) h
          have hsp := win_partner_succ e w 0
          rw [hco, Nat.zero_add] at hsp
          rw [hsp] at hv1
          exact inWin_disj e w 0 x hw1 hv1
      · have hsend := send_eq n e op (v := partner v j) (i := K + t)
          (by rw [hmir, partner_partner, ← shared_symm n hn hv hpl]; exact hsh)
        rw [← (early_eq n root e op hn hr _ (K + t) _ hi2 (hactive v hvj)).2] at hrecv
        rw [← (early_eq n root e op hn hr _ (K + t) _ hi2 (hactive _ hpl')).1] at hsend
        rw [hmir, hK1] at hrecv hsend
        rw [partner_partner] at hsend
        simp only [hik, if_false] at hrecv hsend
        rw [win_partner_succ] at hsend
        obtain ⟨z, rfl⟩ : ∃ z, x = (snd e v j).1 + z := ⟨x - (snd e v j).1, by have := h.1; omega⟩
        have hz : z < (snd e v j).2 := by have := h.2; omega
        have := Rounds.sync_recv (reduce_ok n root e op hn hr) M0 (p := v) (i := K + t) (q := partner v j)
          hv (by simp only [reduce]; omega) hpl hsend hrecv z hz
        refine Eq.trans this ?_
        simp only [Bool.false_eq_true, if_false]
        exact ih' (partner v j) _ hpl (by omega) (by rw [win_partner_succ]; exact h)

/-- The window of the halves each active virtual rank holds before the last step (or the
whole result for root 0). -/
theorem before_last (assoc : ∀ a b c, op (op a b) c = op a (op b c)) (comm : ∀ a b, op a b = op b a)
    (contrib : Nat → Nat → V) (t : Nat) (ht : t ≤ (computeTree n).log2nproc)
    (ht' : root ≠ 0 → t < (computeTree n).log2nproc) :
    ∀ v x, v < (computeTree n).virtualNproc → v < 2 ^ ((computeTree n).log2nproc - t + 1) →
      InWin (win e v ((computeTree n).log2nproc - t)) x →
      (reduce n root e op).sync (reduceInit contrib) ((computeTree n).log2nproc + t)
        ((rankMap n).virtualToReal v, 0, x) = red op (fun r => contrib r x) 0 (n - 1) := by
  obtain ⟨K, hK1, hK2, _⟩ := computeTree_spec n
  refine fan_in n root e op hn hr (reduceInit contrib) (fun x => red op (fun r => contrib r x) 0 (n - 1)) ?_ t ht ht'
  intro v x hv hx
  rw [sync_halving n root e op hn hr _ _ (Nat.le_refl _)]
  have := fan_out n e op hn assoc comm contrib (computeTree n).log2nproc (Nat.le_refl _) v x hv hx
  refine Eq.trans this ?_
  rw [hK1]
  exact blockRed_all n hn op _ v K hK2 (by rw [← hK2]; exact hv)

/-- In the last gather round, which a root other than 0 skips, nothing is written. -/
theorem skipped (M0 : Loc → V) (h0 : root ≠ 0) (r x : Nat) :
    (reduce n root e op).sync M0 (2 * (computeTree n).log2nproc) (r, 0, x) =
      (reduce n root e op).sync M0 (2 * (computeTree n).log2nproc - 1) (r, 0, x) := by
  have hK := log_pos n root hn hr h0
  obtain ⟨m, hm⟩ : ∃ m, 2 * (computeTree n).log2nproc = m + 1 := ⟨2 * (computeTree n).log2nproc - 1, by omega⟩
  rw [hm, Nat.add_sub_cancel]
  apply keep n root e op hn hr
  intro w q y _ _ hy _
  have hact : active (computeTree n).log2nproc root w m = false := by
    have hmm : mir (computeTree n).log2nproc m = 0 := by unfold mir; rw [if_neg (by omega)]; omega
    have : ¬ m < (computeTree n).log2nproc := by omega
    simp [active, hmm, this, h0]
  simp only [reduce] at hy
  rw [if_pos (by omega), hact] at hy
  simp at hy

end

/-- C33 for root 0, or a number of ranks that is not one less than a power of two: for an
associative and commutative operation, whatever the order and delay of messages, the reduce
ends on all ranks, all messages are consumed, and the root's result holds, in every element,
the reduction of all contributions, each counted exactly once.  Missing: roots other than 0
with `2^k - 1` ranks, where it is false. -/
theorem C33_reduce_partial (n root e : Nat) (hr : root < n) (op : V → V → V)
    (assoc : ∀ a b c, op (op a b) c = op a (op b c)) (comm : ∀ a b, op a b = op b a)
    (hcase : root = 0 ∨ ∀ k, n + 1 ≠ 2 ^ k) (contrib : Nat → Nat → V) :
    Yields (reduce n root e op).sys (reduceInit contrib)
      (fun mem => ∀ x, x < e → mem (root, 0, x) = red op (fun r => contrib r x) 0 (n - 1)) := by
  have hn : 1 ≤ n := by omega
  apply Rounds.ends (reduce_ok n root e op hn hr)
  intro x hx
  obtain ⟨K, hK1, hK2, _, hK3, hK4⟩ := computeTree_spec n
  show (reduce n root e op).sync _ (2 * (computeTree n).log2nproc + 1) _ = _
  by_cases h0 : root = 0
  · subst h0
    rw [keep n 0 e op hn hr]
    · have := before_last n 0 e op hn hr assoc comm contrib K (by omega) (fun h => absurd rfl h) 0 x
        (by rw [hK2]; exact Nat.two_pow_pos K) (by rw [hK1, Nat.sub_self]; omega)
        (by rw [hK1, Nat.sub_self]; exact ⟨Nat.zero_le _, by simp [win, hx]⟩)
      rw [real_zero, hK1] at this
      rw [hK1, Nat.two_mul]
      exact this
    · intro w q y _ _ hy
      rw [(late_eq n 0 e op hn hr w q).2] at hy
      exact absurd rfl (final_some n 0 e hn hy).1
  · have hKp := log_pos n root hn hr h0
    have hrr := role_real n hn
    have hb := before_last n root e op hn hr assoc comm contrib (K - 1) (by omega) (by intro _; omega)
    have hK' : K - (K - 1) = 1 := by omega
    have hT : K + (K - 1) = 2 * K - 1 := by omega
    rw [hK1, hK', hT] at hb
    have hskip := skipped n root e op hn hr (reduceInit contrib) h0
    rw [hK1] at hskip
    have hvn := virtualNproc_lt n hn
    -- the upper role of rank 1 holds the upper half
    have hup : upRole n 1 % 2 = 1 ∧ upRole n 1 < 4 := by
      have hne : (computeTree n).virtualNproc ≠ n + 1 := by
        rcases hcase with h | h
        · exact absurd h h0
        · rw [hK2]; exact fun hh => h K hh.symm
      rw [upRole_eq]
      split <;> omega
    have hlow0 : lowRole n 0 = 0 := by rw [lowRole_eq]; split <;> omega
    have hsp : split e ≤ e := by unfold split; omega
    by_cases hxs : x < split e
    · -- lower half: received from rank 0
      have hs : (reduce n root e op).send (lowRole n 0) (2 * K) (lowRole n root) =
          some { buf := 0, off := 0, len := split e } := by
        have := (late_eq n root e op hn hr (lowRole n 0) (lowRole n root)).1
        rw [hK1] at this
        rw [this]
        exact final_low n root e hn h0
      have hrc : (reduce n root e op).recv (lowRole n root) (2 * K) (lowRole n 0) =
          some { buf := 0, off := 0, len := split e } := by
        have := (late_eq n root e op hn hr (lowRole n root) (lowRole n 0)).2
        rw [hK1] at this
        rw [this]
        exact final_low n root e hn h0
      have hrecv := Rounds.sync_recv (reduce_ok n root e op hn hr) (reduceInit contrib) (p := lowRole n root)
        (i := 2 * K) (q := lowRole n 0) (role_lt n hn root hr).1 (by simp only [reduce]; omega)
        (role_lt n hn 0 (by omega)).1 hs hrc x hxs
      simp only [Nat.zero_add, Bool.false_eq_true, if_false] at hrecv
      have e1 : (reduce n root e op).real (lowRole n root) = root := (hrr root hr).1
      have e2 : (reduce n root e op).real (lowRole n 0) = 0 := (hrr 0 (by omega)).1
      rw [e1, e2] at hrecv
      rw [hK1, hrecv, hskip]
      have := hb 0 x (by omega) (by omega) (by rw [win_even n root e hn hr 0 rfl]; exact ⟨Nat.zero_le _, by simpa using hxs⟩)
      rw [real_zero] at this
      exact this
    · by_cases h1 : root = 1
      · -- the root itself holds the upper half
        subst h1
        rw [keep n 1 e op hn hr, hK1, hskip]
        · have := hb (upRole n 1) x (role_lt n hn 1 hr).2 (by omega)
            (by rw [win_odd n 1 e hn hr _ hup.1]; exact ⟨by simp only; omega, by simp only; omega⟩)
          rw [(hrr 1 hr).2] at this
          exact this
        · intro w q y _ _ hy hin
          rw [(late_eq n 1 e op hn hr w q).2] at hy
          rcases (final_some n 1 e hn hy).2 with ⟨_, _, rfl⟩ | ⟨h, _⟩
          · have := hin.2
            simp only at this
            omega
          · exact h rfl
      · have hs : (reduce n root e op).send (upRole n 1) (2 * K) (upRole n root) =
            some { buf := 0, off := split e, len := e - split e } := by
          have := (late_eq n root e op hn hr (upRole n 1) (upRole n root)).1
          rw [hK1] at this
          rw [this]
          exact final_up n root e hn h0 h1 hr
        have hrc : (reduce n root e op).recv (upRole n root) (2 * K) (upRole n 1) =
            some { buf := 0, off := split e, len := e - split e } := by
          have := (late_eq n root e op hn hr (upRole n root) (upRole n 1)).2
          rw [hK1] at this
          rw [this]
          exact final_up n root e hn h0 h1 hr
        obtain ⟨z, rfl⟩ : ∃ z, x = split e + z := ⟨x - split e, by omega⟩
        have hrecv := Rounds.sync_recv (reduce_ok n root e op hn hr) (reduceInit contrib) (p := upRole n root)
          (i := 2 * K) (q := upRole n 1) (role_lt n hn root hr).2 (by simp only [reduce]; omega)
          (role_lt n hn 1 (by omega)).2 hs hrc z (by simp only; omega)
        simp only [Bool.false_eq_true, if_false] at hrecv
        have e1 : (reduce n root e op).real (upRole n root) = root := (hrr root hr).2
        have e2 : (reduce n root e op).real (upRole n 1) = 1 := (hrr 1 (by omega)).2
        rw [e1, e2] at hrecv
        rw [hK1, hrecv, hskip]
        have := hb (upRole n 1) (split e + z) (role_lt n hn 1 (by omega)).2 (by omega)
          (by rw [win_odd n root e hn hr _ hup.1]; exact ⟨by simp only; omega, by simp only; omega⟩)
        rw [(hrr 1 (by omega)).2] at this
        exact this

/-- C33 is false for other roots with `2^k - 1` ranks: with three ranks and root 2 the upper
half of the result is rank 1's own contribution. -/
theorem C33_reduce_refuted :
    ¬ ∀ (n root e : Nat) (contrib : Nat → Nat → Nat), root < n →
      Yields (reduce n root e (· + ·)).sys (reduceInit contrib)
        (fun mem => ∀ x, x < e → mem (root, 0, x) = red (· + ·) (fun r => contrib r x) 0 (n - 1)) := by
  intro h
  have h1 := h 3 2 2 (fun r _ => 10 ^ r) (by omega)
  have h2 := Rounds.ends (reduce_ok 3 2 2 (· + ·) (by omega) (by omega)) (reduceInit (fun r _ => 10 ^ r))
    (fun mem => mem (2, 0, 1) = 10) (by decide +kernel)
  obtain ⟨mem, e1, e2⟩ := Yields.both h1 h2
  have := e1 1 (by omega)
  rw [e2] at this
  revert this
  decide

/-- Six ranks (two of them with two virtual ranks), root 4, three elements. -/
example : (∀ k, 6 + 1 ≠ 2 ^ k) ∧
    (let mem := (reduce 6 4 3 (· + ·)).sync (reduceInit (fun r x => 10 ^ r * (x + 1))) 7
     (List.range 3).map (fun x => mem (4, 0, x))) = [111111, 222222, 333333] := by
  refine ⟨?_, by decide +kernel⟩
  intro k h
  rcases Nat.lt_or_ge k 3 with hk | hk
  · have : k = 0 ∨ k = 1 ∨ k = 2 := by omega
    rcases this with rfl | rfl | rfl <;> simp at h
  · have : 2 ^ 3 ≤ 2 ^ k := Nat.pow_le_pow_right (by omega) hk
    omega

end SST.Coll.Reduce
