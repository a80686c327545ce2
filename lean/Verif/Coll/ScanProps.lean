import Verif.Coll.Scan
import Verif.Coll.Reduction
/-!
C35: scan.  The program as it is gives the prefix reduction only up to three ranks, because
the send buffer is never refreshed; with the refresh it is right for all sizes.
-/
set_option autoImplicit false
namespace SST.Coll.Scan
open SST.Coll

variable {V : Type}

/-- Rank `r` holds the reduction of the contributions of ranks `0..r`, in every element. -/
def Scanned (n e : Nat) (op : V → V → V) (contrib : Nat → Nat → V) (result : Nat → Nat → V) : Prop :=
  ∀ r x, r < n → x < e → result r x = red op (fun q => contrib q x) 0 r

theorem scan_ok (rb : Bool) (n e : Nat) (op : V → V → V) : (scanDag rb n e op).Ok := by
  have hsend : ∀ p i q x, (scanDag rb n e op).send p i q = some x →
      i % 2 = 0 ∧ q = p + 2 ^ (i / 2) ∧ x = { buf := 1, off := 0, len := e } := by
    intro p i q x h
    simp only [scanDag] at h
    split at h
    · rename_i hc
      simp only [Option.some.injEq] at h
      exact ⟨hc.1, hc.2, h.symm⟩
    · simp at h
  have hrecv : ∀ p i q x, (scanDag rb n e op).recv p i q = some x →
      i % 2 = 0 ∧ p = q + 2 ^ (i / 2) ∧ x = { buf := 0, off := 0, len := e, red := true } := by
    intro p i q x h
    simp only [scanDag] at h
    split at h
    · rename_i hc
      simp only [Option.some.injEq] at h
      exact ⟨hc.1, hc.2, h.symm⟩
    · simp at h
  have hloc : ∀ p i o, (scanDag rb n e op).loc p i = some o → i % 2 = 1 ∧ o = copy e := by
    intro p i o h
    simp only [scanDag] at h
    split at h
    · rename_i hc
      simp only [Option.some.injEq] at h
      exact ⟨hc.2.1, h.symm⟩
    · simp at h
  refine ⟨?_, ?_, ?_, ?_, ?_, ?_, ?_⟩
  · intro p i q x hp hi hq h
    obtain ⟨h1, h2, h3⟩ := hsend p i q x h
    refine ⟨{ buf := 0, off := 0, len := e, red := true }, ?_, by rw [h3]⟩
    simp only [scanDag]
    rw [if_pos ⟨h1, h2⟩]
  · intro p i q y hp hi hq h
    obtain ⟨h1, h2, _⟩ := hrecv q i p y h
    refine ⟨{ buf := 1, off := 0, len := e }, ?_⟩
    simp only [scanDag]
    rw [if_pos ⟨h1, h2⟩]
  · intro p i q x _ _ _ _; rfl
  · intro p i q p' i' q' x x' hp hi hq hp' hi' hq' h h' h1 h2 h3
    simp only [scanDag, id_eq] at h1 h2 h3
    subst h1
    subst h2
    obtain ⟨e1, _, _⟩ := hrecv p i q x h
    obtain ⟨e2, _, _⟩ := hrecv p i' q x' h'
    exact ⟨rfl, by omega, rfl⟩
  · apply Rounds.sep_of_inj
    intro p q _ _ h
    exact h
  · intro a b l ha hb hab hp hi hw hu
    obtain ⟨_, _, _, hah⟩ := Rounds.mem_acts.mp ha
    obtain ⟨_, _, _, hbh⟩ := Rounds.mem_acts.mp hb
    obtain ⟨p, i, k, q⟩ := a
    obtain ⟨p', i', k', q'⟩ := b
    simp only at hp hi
    subst hp
    subst hi
    cases k with
    | send => simp [Rounds.writesB] at hw
    | loc =>
      simp only [Rounds.has, Bool.and_eq_true, beq_iff_eq] at hah
      obtain ⟨o, ho⟩ := Option.isSome_iff_exists.mp hah.1
      obtain ⟨e1, _⟩ := hloc p i o ho
      cases k' with
      | loc =>
        simp only [Rounds.has, Bool.and_eq_true, beq_iff_eq] at hbh
        apply hab
        rw [hah.2, hbh.2]
      | send =>
        obtain ⟨x, hx⟩ := Option.isSome_iff_exists.mp hbh
        have := (hsend p i q' x hx).1
        omega
      | recv =>
        obtain ⟨x, hx⟩ := Option.isSome_iff_exists.mp hbh
        have := (hrecv p i q' x hx).1
        omega
    | recv =>
      obtain ⟨y, hy⟩ := Option.isSome_iff_exists.mp hah
      simp only at hy
      obtain ⟨e1, e2, e3⟩ := hrecv p i q y hy
      simp only [Rounds.writesB, hy, Rounds.inX, Bool.and_eq_true, beq_iff_eq] at hw
      cases k' with
      | loc =>
        simp only [Rounds.has, Bool.and_eq_true, beq_iff_eq] at hbh
        obtain ⟨o, ho⟩ := Option.isSome_iff_exists.mp hbh.1
        have := (hloc p i o ho).1
        omega
      | recv =>
        obtain ⟨y', hy'⟩ := Option.isSome_iff_exists.mp hbh
        have := (hrecv p i q' y' hy').2.1
        apply hab
        have : q = q' := by omega
        rw [this]
      | send =>
        obtain ⟨x, hx⟩ := Option.isSome_iff_exists.mp hbh
        have e4 := (hsend p i q' x hx).2.2
        simp only at hx
        simp only [Rounds.writesB, Rounds.touchB, hx, Rounds.inX, Bool.and_eq_true, beq_iff_eq,
          Bool.false_eq_true, false_or] at hu
        rw [e3] at hw
        rw [e4] at hu
        have := hw.1.1.2
        have := hu.1.1.2
        simp only at *
        omega
  · intro p i o M M' b x h hw hM
    obtain ⟨_, rfl⟩ := hloc p i o h
    simp only [copy, Bool.and_eq_true, beq_iff_eq, decide_eq_true_eq] at hw hM ⊢
    exact hM 0 x ⟨rfl, hw.2⟩

/-- What the exchange of round `r` does to the result buffer. -/
theorem exchange (rb : Bool) (n e : Nat) (op : V → V → V) (M0 : Loc → V) (r p x : Nat)
    (hr : r < (computeTree n).log2nproc) (hp : p < n) (hx : x < e) :
    (scanDag rb n e op).sync M0 (2 * r + 1) (p, 0, x) =
      if 2 ^ r ≤ p then op ((scanDag rb n e op).sync M0 (2 * r) (p, 0, x))
        ((scanDag rb n e op).sync M0 (2 * r) (p - 2 ^ r, 1, x))
      else (scanDag rb n e op).sync M0 (2 * r) (p, 0, x) := by
  have e1 : 2 * r / 2 = r := by omega
  have hpos := Nat.two_pow_pos r
  split
  · rename_i hle
    have hsend : (scanDag rb n e op).send (p - 2 ^ r) (2 * r) p = some { buf := 1, off := 0, len := e } := by
      simp only [scanDag]
      rw [if_pos]
      exact ⟨by omega, by rw [e1]; omega⟩
    have hrecv : (scanDag rb n e op).recv p (2 * r) (p - 2 ^ r) =
        some { buf := 0, off := 0, len := e, red := true } := by
      simp only [scanDag]
      rw [if_pos]
      exact ⟨by omega, by rw [e1]; omega⟩
    have := Rounds.sync_recv (scan_ok rb n e op) M0 (p := p) (i := 2 * r) (q := p - 2 ^ r)
      hp (by simp only [scanDag]; omega) (by simp only [scanDag]; omega) hsend hrecv x hx
    simp only [Nat.zero_add, if_true] at this
    exact this
  · rename_i hle
    apply Rounds.sync_keep'
    · intro q _ h; exact h
    · intro q y _ hy
      simp only [scanDag] at hy
      split at hy
      · rename_i hc
        rw [e1] at hc
        omega
      · simp at hy
    · intro o ho
      simp only [scanDag] at ho
      split at ho
      · rename_i hc; omega
      · simp at ho

/-- The exchange leaves the send buffer alone, the shuffle the result buffer. -/
theorem keep_other (rb : Bool) (n e : Nat) (op : V → V → V) (M0 : Loc → V) (r p x : Nat) :
    (scanDag rb n e op).sync M0 (2 * r + 1) (p, 1, x) = (scanDag rb n e op).sync M0 (2 * r) (p, 1, x) ∧
    (scanDag rb n e op).sync M0 (2 * r + 2) (p, 0, x) = (scanDag rb n e op).sync M0 (2 * r + 1) (p, 0, x) := by
  constructor
  · apply Rounds.sync_keep'
    · intro q _ h; exact h
    · intro q y _ hy
      simp only [scanDag] at hy
      split at hy
      · simp only [Option.some.injEq] at hy
        subst hy
        rintro ⟨h, _⟩
        simp at h
      · simp at hy
    · intro o ho
      simp only [scanDag] at ho
      split at ho
      · rename_i hc; omega
      · simp at ho
  · apply Rounds.sync_keep'
    · intro q _ h; exact h
    · intro q y _ hy
      simp only [scanDag] at hy
      split at hy
      · rename_i hc; omega
      · simp at hy
    · intro o ho
      simp only [scanDag] at ho
      split at ho
      · simp only [Option.some.injEq] at ho
        subst ho
        simp [copy]
      · simp at ho

/-- The shuffle refreshes the send buffer of every rank that sends in the next round. -/
theorem refresh (n e : Nat) (op : V → V → V) (M0 : Loc → V) (r p x : Nat)
    (hr : r < (computeTree n).log2nproc) (hp : p + 2 ^ (r + 1) < n) (hx : x < e) :
    (scanDag true n e op).sync M0 (2 * r + 2) (p, 1, x) = (scanDag true n e op).sync M0 (2 * r + 1) (p, 0, x) := by
  have e1 : (2 * r + 1) / 2 = r := by omega
  have hpos := Nat.two_pow_pos (r + 1)
  have hloc : (scanDag true n e op).loc p (2 * r + 1) = some (copy e) := by
    simp only [scanDag]
    rw [if_pos]
    exact ⟨trivial, by omega, by rw [e1]; exact hp⟩
  have ha : (⟨p, 2 * r + 1, .loc, p⟩ : Act) ∈ (scanDag true n e op).acts := by
    rw [Rounds.mem_acts]
    refine ⟨?_, ?_, ?_, by simp [Rounds.has, hloc]⟩
    · show p < n; omega
    · simp only [scanDag]; omega
    · show p < n; omega
  have hw : (scanDag true n e op).writesB ⟨p, 2 * r + 1, .loc, p⟩ (p, 1, x) = true := by
    simp only [Rounds.writesB, hloc]
    simp [copy, hx, scanDag]
  have := Rounds.sync_write (scan_ok true n e op) M0 ha hw
  refine this.trans ?_
  simp only [Rounds.effF, hloc]
  rw [if_pos (by simp [copy, hx, scanDag])]
  rfl

/-- What the program computes for rank `p`: its contribution combined with that of the ranks
at distance 1, 2, 4, ... -/
def combined (op : V → V → V) (d : Nat → V) (p : Nat) : Nat → V
  | 0 => d p
  | r + 1 => if 2 ^ r ≤ p then op (combined op d p r) (d (p - 2 ^ r)) else combined op d p r

theorem scan_sync (n e : Nat) (op : V → V → V) (contrib : Nat → Nat → V) (r : Nat)
    (hr : r ≤ (computeTree n).log2nproc) : ∀ p x, p < n → x < e →
    (scan n e op).sync (scanInit contrib) (2 * r) (p, 0, x) = combined op (fun q => contrib q x) p r ∧
    (scan n e op).sync (scanInit contrib) (2 * r) (p, 1, x) = contrib p x := by
  induction r with
  | zero => intro p x _ _; exact ⟨rfl, rfl⟩
  | succ r ih =>
    intro p x hp hx
    have ih' := ih (by omega)
    have hpos := Nat.two_pow_pos r
    have e0 : 2 * (r + 1) = 2 * r + 2 := by omega
    rw [e0]
    obtain ⟨k1, k2⟩ := keep_other false n e op (scanInit contrib) r p x
    constructor
    · rw [show (scan n e op) = scanDag false n e op from rfl, k2,
        exchange false n e op _ r p x (by omega) hp hx]
      simp only [combined]
      split
      · have h1 := (ih' p x hp hx).1
        have h2 := (ih' (p - 2 ^ r) x (by omega) hx).2
        rw [show (scan n e op) = scanDag false n e op from rfl] at h1 h2
        rw [h1, h2]
      · exact (ih' p x hp hx).1
    · have h2 := (ih' p x hp hx).2
      rw [show (scan n e op) = scanDag false n e op from rfl] at h2 ⊢
      rw [Rounds.sync_keep', k1, h2]
      · intro q _ h; exact h
      · intro q y _ hy
        simp only [scanDag] at hy
        split at hy
        · rename_i hc; omega
        · simp at hy
      · intro o ho
        simp [scanDag] at ho

/-- C35, what the program does: whatever the order and delay of messages the scan ends on
all ranks, and a rank's result is its contribution combined with those at distance
1, 2, 4, ... below it. -/
theorem C35_as_coded (n e : Nat) (op : V → V → V) (contrib : Nat → Nat → V) :
    Yields (scan n e op).sys (scanInit contrib)
      (fun mem => ∀ p x, p < n → x < e →
        mem (p, 0, x) = combined op (fun q => contrib q x) p (computeTree n).log2nproc) := by
  apply Rounds.ends (scan_ok false n e op)
  intro p x hp hx
  exact (scan_sync n e op contrib _ (Nat.le_refl _) p x hp hx).1

/-- C35 for up to three ranks and a commutative, associative operation.  Missing: larger
communicators, where it is false. -/
theorem C35_scan_partial (n e : Nat) (hn : n ≤ 3) (op : V → V → V) (comm : ∀ a b, op a b = op b a)
    (assoc : ∀ a b c, op (op a b) c = op a (op b c)) (contrib : Nat → Nat → V) :
    Yields (scan n e op).sys (scanInit contrib)
      (fun mem => Scanned n e op contrib (fun p x => mem (p, 0, x))) := by
  apply Rounds.ends (scan_ok false n e op)
  intro p x hp hx
  refine ((scan_sync n e op contrib _ (Nat.le_refl _) p x hp hx).1).trans ?_
  have h1 : computeTree 1 = ⟨0, 0, 1⟩ := by decide
  have h2 : computeTree 2 = ⟨1, 1, 2⟩ := by decide
  have h3 : computeTree 3 = ⟨2, 2, 4⟩ := by decide
  have : n = 1 ∨ n = 2 ∨ n = 3 := by omega
  rcases this with rfl | rfl | rfl
  · have : p = 0 := by omega
    subst this
    rw [h1]
    rfl
  · have : p = 0 ∨ p = 1 := by omega
    rw [h2]
    rcases this with rfl | rfl
    · rfl
    · simp only [combined, red]
      exact comm _ _
  · have : p = 0 ∨ p = 1 ∨ p = 2 := by omega
    rw [h3]
    rcases this with rfl | rfl | rfl
    · rfl
    · simp only [combined, red]
      exact comm _ _
    · simp only [combined, red]
      show op (op (contrib 2 x) (contrib 1 x)) (contrib 0 x) = op (op (contrib 0 x) (contrib 1 x)) (contrib 2 x)
      rw [comm, comm (contrib 2 x), ← assoc]

/-- C35 is false of the program: with four ranks the last one misses the contribution of
rank 0. -/
theorem C35_scan_refuted :
    ¬ ∀ (n e : Nat) (contrib : Nat → Nat → Nat),
      Yields (scan n e (· + ·)).sys (scanInit contrib)
        (fun mem => Scanned n e (· + ·) contrib (fun p x => mem (p, 0, x))) := by
  intro h
  have h1 := h 4 1 (fun q _ => 10 ^ q)
  have h2 := C35_as_coded 4 1 (· + ·) (fun q _ => 10 ^ q)
  obtain ⟨mem, e1, e2⟩ := Yields.both h1 h2
  have e3 := e1 3 0 (by omega) (by omega)
  have e4 := e2 3 0 (by omega) (by omega)
  simp only at e3
  rw [e3] at e4
  revert e4
  decide

/-- The reduction of the (up to) `2^r` ranks ending at `p`. -/
def tail (op : V → V → V) (d : Nat → V) (p r : Nat) : V := red op d (p + 1 - 2 ^ r) (p - (p + 1 - 2 ^ r))

theorem tail_succ (op : V → V → V) (comm : ∀ a b, op a b = op b a)
    (assoc : ∀ a b c, op (op a b) c = op a (op b c)) (d : Nat → V) (p r : Nat) :
    tail op d p (r + 1) = if 2 ^ r ≤ p then op (tail op d p r) (tail op d (p - 2 ^ r) r) else tail op d p r := by
  have hpos := Nat.two_pow_pos r
  have hs : 2 ^ (r + 1) = 2 ^ r + 2 ^ r := by rw [Nat.pow_succ]; omega
  unfold tail
  rw [hs]
  generalize 2 ^ r = g at hpos
  split
  · rename_i hle
    rw [comm]
    have h := red_append op assoc d (p - g + 1 - g) (p - g - (p - g + 1 - g)) (p - (p + 1 - g))
    rw [show p - g + 1 - g + (p - g - (p - g + 1 - g)) + 1 = p + 1 - g by omega] at h
    rw [h]
    congr 1 <;> omega
  · rename_i hle
    congr 1 <;> omega

theorem repaired_sync (n e : Nat) (op : V → V → V) (comm : ∀ a b, op a b = op b a)
    (assoc : ∀ a b c, op (op a b) c = op a (op b c)) (contrib : Nat → Nat → V) (r : Nat)
    (hr : r ≤ (computeTree n).log2nproc) : ∀ p x, p < n → x < e →
    (scanDag true n e op).sync (scanInit contrib) (2 * r) (p, 0, x) = tail op (fun q => contrib q x) p r ∧
    (p + 2 ^ r < n → (scanDag true n e op).sync (scanInit contrib) (2 * r) (p, 1, x) =
      tail op (fun q => contrib q x) p r) := by
  induction r with
  | zero =>
    intro p x _ _
    have : tail op (fun q => contrib q x) p 0 = contrib p x := by
      simp only [tail, Nat.pow_zero]
      rw [show p - (p + 1 - 1) = 0 by omega]
      rfl
    rw [this]
    exact ⟨rfl, fun _ => rfl⟩
  | succ r ih =>
    intro p x hp hx
    have ih' := ih (by omega)
    have hpos := Nat.two_pow_pos r
    have e0 : 2 * (r + 1) = 2 * r + 2 := by omega
    rw [e0]
    obtain ⟨k1, k2⟩ := keep_other true n e op (scanInit contrib) r p x
    have hres : (scanDag true n e op).sync (scanInit contrib) (2 * r + 1) (p, 0, x) =
        tail op (fun q => contrib q x) p (r + 1) := by
      rw [exchange true n e op _ r p x (by omega) hp hx, tail_succ op comm assoc]
      split
      · rw [(ih' p x hp hx).1, (ih' (p - 2 ^ r) x (by omega) hx).2 (by omega)]
      · exact (ih' p x hp hx).1
    exact ⟨k2.trans hres, fun h => (refresh n e op _ r p x (by omega) h hx).trans hres⟩

/-- C35 with the send buffer refreshed between rounds (the shuffle that `initDag` would add
if `recv_buffer_` were set before it runs): right for all communicators.  Missing: the
program as it stands never creates the shuffle. -/
theorem C35_with_refresh_partial (n e : Nat) (op : V → V → V) (comm : ∀ a b, op a b = op b a)
    (assoc : ∀ a b c, op (op a b) c = op a (op b c)) (contrib : Nat → Nat → V) :
    Yields (scanDag true n e op).sys (scanInit contrib)
      (fun mem => Scanned n e op contrib (fun p x => mem (p, 0, x))) := by
  apply Rounds.ends (scan_ok true n e op)
  intro p x hp hx
  refine ((repaired_sync n e op comm assoc contrib _ (Nat.le_refl _) p x hp hx).1).trans ?_
  obtain ⟨k, h1, _, _, h2, _⟩ := computeTree_spec n
  rw [h1]
  unfold tail
  congr 1 <;> omega

/-- Five ranks: the program against the intended result. -/
example :
    (let mem := (scan 5 1 (· + ·)).sync (scanInit (fun p _ => 10 ^ p)) 6
     (List.range 5).map (fun p => mem (p, 0, 0))) = [1, 11, 111, 1110, 11101] ∧
    (let mem := (scanDag true 5 1 (· + ·)).sync (scanInit (fun p _ => 10 ^ p)) 6
     (List.range 5).map (fun p => mem (p, 0, 0))) = [1, 11, 111, 1111, 11111] := by
  decide +kernel

end SST.Coll.Scan
