import Verif.Coll.DirectAlltoall
import Verif.Coll.DagCtl
import Verif.Os.CoresProps
/-!
C97: the direct all-to-all exchange completes on all ranks with one message for every pair of
ranks; its data are not delivered.
-/
set_option autoImplicit false
namespace SST.Coll.Direct
open SST.Coll

variable {V : Type}

theorem mod_small {x n : Nat} (hx : x < 2 * n) : x % n = if x < n then x else x - n := by
  split
  · next h => exact Nat.mod_eq_of_lt h
  · next h => rw [Nat.mod_eq_sub_mod (by omega), Nat.mod_eq_of_lt (by omega)]

theorem tmod_nat (x : Int) (m n : Nat) (h : x = m) : (x.tmod n).toNat = m % n := by
  subst h
  rw [Int.tmod_eq_emod_of_nonneg (by omega)]
  rw [← Int.natCast_emod]
  rfl

theorem partner_up {n me i : Nat} (hm : me < n) (hi : i < n) :
    partner n me 1 i = if me + i < n then me + i else me + i - n := by
  unfold partner
  rw [tmod_nat _ (me + i + n) n (by omega), Nat.add_mod_right]
  exact mod_small (by omega)

theorem partner_down {n me i : Nat} (hm : me < n) (hi : i < n) :
    partner n me (-1) i = if i ≤ me then me - i else me + n - i := by
  unfold partner
  rw [tmod_nat _ (me + n - i) n (by omega), mod_small (by omega)]
  split <;> split <;> omega

theorem prev_up {n me i : Nat} (hm : me < n) (hi : i < n) (h3 : 3 ≤ i) :
    prevPartner n (partner n me 1 i) 3 1 = partner n me 1 (i - 3) := by
  rw [partner_up hm hi, partner_up hm (by omega)]
  unfold prevPartner
  split
  · rw [tmod_nat _ (me + i + n - 3) n (by omega), mod_small (by omega)]
    split <;> split <;> omega
  · rw [tmod_nat _ (me + i - 3) n (by omega), mod_small (by omega)]
    split <;> (try split) <;> omega

theorem prev_down {n me i : Nat} (hm : me < n) (hi : i < n) (h3 : 3 ≤ i) :
    prevPartner n (partner n me (-1) i) 3 (-1) = partner n me (-1) (i - 3) := by
  rw [partner_down hm hi, partner_down hm (by omega)]
  unfold prevPartner
  split
  · rw [tmod_nat _ (me - i + 3 + n) n (by omega), Nat.add_mod_right, mod_small (by omega)]
    split <;> split <;> omega
  · rw [tmod_nat _ (me + n - i + 3 + n) n (by omega), Nat.add_mod_right, mod_small (by omega)]
    split <;> (try split) <;> omega

/-- Distance between the partners of an action. -/
def strideOf (n : Nat) (a : XAct) : Nat :=
  if a.k = .send then (if a.p ≤ a.q then a.q - a.p else a.q + n - a.p)
  else (if a.q ≤ a.p then a.p - a.q else a.p + n - a.q)

/-- The action of a rank with a given stride. -/
def actAt (n me : Nat) (k : Kind) (i : Nat) : XAct := ⟨me, k, partner n me (if k = .send then 1 else -1) i⟩

theorem stride_actAt {n me i : Nat} (k : Kind) (hm : me < n) (hi : i < n) : strideOf n (actAt n me k i) = i := by
  unfold strideOf actAt
  simp only
  split
  · rw [partner_up hm hi]; split <;> split <;> omega
  · rw [partner_down hm hi]; split <;> split <;> omega

theorem actAt_stride {n : Nat} {a : XAct} (hp : a.p < n) (hq : a.q < n) : actAt n a.p a.k (strideOf n a) = a := by
  obtain ⟨p, k, q⟩ := a
  unfold actAt strideOf
  simp only at hp hq ⊢
  congr 1
  split
  · split
    · rw [partner_up hp (by omega)]; split <;> omega
    · rw [partner_up hp (by omega)]; split <;> omega
  · split
    · rw [partner_down hp (by omega)]; split <;> omega
    · rw [partner_down hp (by omega)]; split <;> omega

theorem stride_lt {n : Nat} {a : XAct} (hp : a.p < n) (hq : a.q < n) : strideOf n a < n := by
  unfold strideOf
  split <;> split <;> omega

theorem actAt_bounds {n me i : Nat} (k : Kind) (hm : me < n) (hi : i < n) : (actAt n me k i).q < n := by
  unfold actAt
  simp only
  split
  · rw [partner_up hm hi]; split <;> omega
  · rw [partner_down hm hi]; split <;> omega

theorem add_eq {n me i : Nat} (k : Kind) (hm : me < n) (hi : i < n) :
    addAction n me k (if k = .send then 1 else -1) 3 i =
      (if i < 3 then none else some (actAt n me k (i - 3)), actAt n me k i) := by
  unfold addAction
  by_cases h3 : i < 3
  · rw [if_pos h3, if_pos h3]; rfl
  · rw [if_neg h3, if_neg h3]
    unfold actAt
    by_cases hk : k = .send
    · simp only [hk, if_true]
      rw [prev_up hm hi (by omega)]
    · simp only [hk, if_false]
      rw [prev_down hm hi (by omega)]

theorem mem_dag {n me : Nat} (hm : me < n) {c : Option XAct × XAct} :
    c ∈ initDag n me ↔ ∃ i k, i < n ∧ k ≠ .loc ∧
      c = (if i < 3 then none else some (actAt n me k (i - 3)), actAt n me k i) := by
  unfold initDag
  simp only [List.mem_flatMap, List.mem_range, List.mem_cons, List.not_mem_nil, or_false]
  constructor
  · rintro ⟨i, hi, h | h⟩
    · refine ⟨i, .recv, hi, by simp, ?_⟩
      rw [h, ← add_eq .recv hm hi]
      rfl
    · refine ⟨i, .send, hi, by simp, ?_⟩
      rw [h, ← add_eq .send hm hi]
      rfl
  · rintro ⟨i, k, hi, hk, h⟩
    refine ⟨i, hi, ?_⟩
    rw [h, ← add_eq k hm hi]
    cases k with
    | send => right; rfl
    | recv => left; rfl
    | loc => exact absurd rfl hk

theorem mem_all {n : Nat} {z : Sizes} {a : XAct} :
    a ∈ (sys (V := V) n z).all ↔ a.p < n ∧ a.q < n ∧ a.k ≠ .loc := by
  unfold sys
  simp only [List.mem_flatMap, List.mem_range, List.mem_map]
  constructor
  · rintro ⟨p, hp, c, hc, rfl⟩
    obtain ⟨i, k, hi, hk, rfl⟩ := (mem_dag hp).mp hc
    exact ⟨hp, actAt_bounds k hp hi, hk⟩
  · rintro ⟨hp, hq, hk⟩
    refine ⟨a.p, hp, _, (mem_dag hp).mpr ⟨strideOf n a, a.k, stride_lt hp hq, hk, rfl⟩, ?_⟩
    exact actAt_stride hp hq

theorem dep_iff {n : Nat} {z : Sizes} {a b : XAct} (ha : a ∈ (sys (V := V) n z).all) :
    (sys (V := V) n z).dep a b ↔ 3 ≤ strideOf n a ∧ b = actAt n a.p a.k (strideOf n a - 3) := by
  obtain ⟨hp, hq, hk⟩ := mem_all.mp ha
  show (some b, a) ∈ initDag n a.p ↔ _
  rw [mem_dag hp]
  constructor
  · rintro ⟨i, k, hi, hk', h⟩
    simp only [Prod.mk.injEq] at h
    obtain ⟨h1, h2⟩ := h
    have hs : strideOf n a = i := by rw [h2]; exact stride_actAt k hp hi
    have hkk : a.k = k := by rw [h2]; rfl
    split at h1
    · cases h1
    · simp only [Option.some.injEq] at h1
      rw [hs, hkk]
      exact ⟨by omega, h1⟩
  · rintro ⟨h3, rfl⟩
    refine ⟨strideOf n a, a.k, stride_lt hp hq, hk, ?_⟩
    rw [if_neg (by omega), actAt_stride hp hq]

theorem ctl_good (n : Nat) (z : Sizes) :
    Good (sys (V := V) n z).ctl (strideOf n) (fun _ => ()) (fun _ _ => ()) where
  init := rfl
  dep_mem := by
    intro a b ha hd
    obtain ⟨h3, rfl⟩ := (dep_iff (V := V) (z := z) ha).mp hd
    obtain ⟨hp, hq, hk⟩ := (mem_all (V := V) (z := z)).mp ha
    have := stride_lt hp hq
    exact (mem_all (V := V) (z := z)).mpr ⟨hp, actAt_bounds a.k hp (by omega), hk⟩
  dep_time := by
    intro a b ha hd
    obtain ⟨h3, rfl⟩ := (dep_iff (V := V) (z := z) ha).mp hd
    obtain ⟨hp, hq, hk⟩ := (mem_all (V := V) (z := z)).mp ha
    have := stride_lt hp hq
    rw [stride_actAt a.k hp (by omega)]
    omega
  send_peer := by
    intro a ha hk
    obtain ⟨p, k, q⟩ := a
    obtain ⟨hp, hq, _⟩ := (mem_all (V := V) (z := z)).mp ha
    change k = .send at hk
    subst hk
    refine ⟨(mem_all (V := V) (z := z)).mpr ⟨hq, hp, by simp [Sys.ctl, sys]⟩, ?_, ?_, ?_, ?_⟩ <;> simp [Sys.ctl, sys, strideOf]
  recv_peer := by
    intro a ha hk
    obtain ⟨p, k, q⟩ := a
    obtain ⟨hp, hq, _⟩ := (mem_all (V := V) (z := z)).mp ha
    change k = .recv at hk
    subst hk
    refine ⟨(mem_all (V := V) (z := z)).mpr ⟨hq, hp, by simp [Sys.ctl, sys]⟩, ?_, ?_⟩ <;> simp [Sys.ctl, sys]
  key_inj := by
    intro a b ha hb hk hk' he
    obtain ⟨p, k, q⟩ := a
    obtain ⟨p', k', q'⟩ := b
    change k = .recv at hk
    change k' = .recv at hk'
    subst hk; subst hk'
    simpa [Sys.ctl, sys] using he
  reads_touch := by intro a l _ h; simp [Sys.ctl] at h
  send_quiet := by intro a l _ _ h; exact h
  frame := by intros; rfl
  locality := by intros; rfl
  race := by intro a b l _ _ _ h; exact absurd h id
  ideal_write := by intros; rfl
  ideal_keep := by intros; rfl

/-- C97: the exchange completes on every rank, under every schedule and for all counts: every
execution ends, and then all sends and receives of all ranks are complete and every message
has been received. -/
theorem C97_completes (n : Nat) (z : Sizes) (M0 : Loc → V) : Yields (sys n z) M0 (fun _ => True) :=
  yields_ctl (yields (ctl_good n z) n (fun a ha => by
    obtain ⟨hp, hq, _⟩ := (mem_all (V := V) (z := z)).mp ha
    exact stride_lt hp hq) _ trivial) (fun _ _ _ => trivial)

theorem flatMap_congr_mem {α β : Type} {l : List α} {f g : α → List β} (h : ∀ a ∈ l, f a = g a) :
    l.flatMap f = l.flatMap g := by
  induction l with
  | nil => rfl
  | cons a l ih =>
    rw [List.flatMap_cons, List.flatMap_cons, h a List.mem_cons_self, ih fun b hb => h b (List.mem_cons_of_mem _ hb)]

theorem dag_acts {n me : Nat} (hm : me < n) :
    (initDag n me).map (·.2) = (List.range n).flatMap fun i => [actAt n me .recv i, actAt n me .send i] := by
  unfold initDag
  rw [List.map_flatMap]
  refine flatMap_congr_mem ?_
  intro i hi
  have hi := List.mem_range.mp hi
  simp only [List.map_cons, List.map_nil]
  rw [show addAction n me .recv (-1) 3 i = _ from add_eq .recv hm hi, show addAction n me .send 1 3 i = _ from add_eq .send hm hi]

theorem nodup_all (n : Nat) (z : Sizes) : (sys (V := V) n z).all.Nodup := by
  show ((List.range n).flatMap fun p => (initDag n p).map (·.2)).Pairwise (· ≠ ·)
  rw [List.pairwise_flatMap]
  constructor
  · intro p hp
    have hp := List.mem_range.mp hp
    rw [dag_acts hp, List.pairwise_flatMap]
    constructor
    · intro i hi
      simp [actAt]
    · refine (List.nodup_range (n := n)).imp_of_mem ?_
      intro i j hi hj hne x hx y hy e
      have hi := List.mem_range.mp hi
      have hj := List.mem_range.mp hj
      subst e
      simp only [List.mem_cons, List.not_mem_nil, or_false] at hx hy
      have h1 : strideOf n x = i := by rcases hx with rfl | rfl <;> exact stride_actAt _ hp hi
      have h2 : strideOf n x = j := by rcases hy with rfl | rfl <;> exact stride_actAt _ hp hj
      exact hne (h1.symm.trans h2)
  · refine (List.nodup_range (n := n)).imp_of_mem ?_
    intro p p' hp hp' hne x hx y hy e
    have hp := List.mem_range.mp hp
    have hp' := List.mem_range.mp hp'
    subst e
    rw [dag_acts hp] at hx
    rw [dag_acts hp'] at hy
    simp only [List.mem_flatMap, List.mem_cons, List.not_mem_nil, or_false] at hx hy
    obtain ⟨i, _, hx⟩ := hx
    obtain ⟨j, _, hy⟩ := hy
    have h1 : x.p = p := by rcases hx with rfl | rfl <;> rfl
    have h2 : x.p = p' := by rcases hy with rfl | rfl <;> rfl
    exact hne (h1.symm.trans h2)

/-- C97: for every pair of ranks, and for a rank with itself, there is exactly one send and one
receive; the message of an `MPI_Alltoallv` has as many elements as the sender's count says. -/
theorem C97_pairs (n : Nat) (sc rc : Nat → Nat → Nat) (p q : Nat) (hp : p < n) (hq : q < n) :
    let S := sys (V := V) n (alltoallvSizes sc rc)
    S.all.count ⟨p, .send, q⟩ = 1 ∧ S.all.count ⟨q, .recv, p⟩ = 1 ∧
      (S.reads ⟨p, .send, q⟩).length = sc p q := by
  refine ⟨?_, ?_, ?_⟩
  · rw [(nodup_all n _).count, if_pos (mem_all.mpr ⟨hp, hq, by simp⟩)]
  · rw [(nodup_all n _).count, if_pos (mem_all.mpr ⟨hq, hp, by simp⟩)]
  · simp [sys, alltoallvSizes]

/-- C97: nothing else is sent: every action is a send or receive between two of the ranks. -/
theorem C97_only_pairs (n : Nat) (z : Sizes) (a : XAct) (ha : a ∈ (sys (V := V) n z).all) :
    a.p < n ∧ a.q < n ∧ (a.k = .send ∨ a.k = .recv) := by
  obtain ⟨h1, h2, h3⟩ := mem_all.mp ha
  refine ⟨h1, h2, ?_⟩
  cases h : a.k with
  | send => exact Or.inl rfl
  | recv => exact Or.inr rfl
  | loc => exact absurd h h3

/-- An active action: everything three, six, ... strides before it is complete. -/
theorem done_before {n : Nat} {z : Sizes} {M0 : Loc → V} {s : State XAct Loc V} (h : Reach (sys n z) M0 s)
    (j : Nat) : ∀ a, a ∈ (sys (V := V) n z).all → s.st a ≠ .idle → 3 * (j + 1) ≤ strideOf n a →
      s.st (actAt n a.p a.k (strideOf n a - 3 * (j + 1))) = .done := by
  have inv := Inv.reach (ctl_good n z) (reach_ctl h)
  induction j with
  | zero =>
    intro a ha hs h3
    exact inv.deps a ha hs _ ((dep_iff (V := V) (z := z) ha).mpr ⟨by omega, rfl⟩)
  | succ j ih =>
    intro a ha hs h3
    have h1 := ih a ha hs (by omega)
    obtain ⟨hp, hq, hk⟩ := mem_all.mp ha
    have hlt := stride_lt hp hq
    have hb := actAt_bounds a.k hp (show strideOf n a - 3 * (j + 1) < n by omega)
    have e : strideOf n (actAt n a.p a.k (strideOf n a - 3 * (j + 1))) = strideOf n a - 3 * (j + 1) :=
      stride_actAt a.k hp (by omega)
    have hm : actAt n a.p a.k (strideOf n a - 3 * (j + 1)) ∈ (sys (V := V) n z).all := mem_all.mpr ⟨hp, hb, hk⟩
    have := inv.deps _ hm (by show s.st _ ≠ _; rw [h1]; simp) _ ((dep_iff (V := V) (z := z) hm).mpr ⟨by rw [e]; omega, rfl⟩)
    rw [e] at this
    have e2 : strideOf n a - 3 * (j + 1 + 1) = strideOf n a - 3 * (j + 1) - 3 := by omega
    rw [e2]
    exact this

theorem active_unique {n : Nat} {z : Sizes} {M0 : Loc → V} {s : State XAct Loc V} (h : Reach (sys n z) M0 s)
    {a b : XAct} (ha : a ∈ (sys (V := V) n z).all) (hb : b ∈ (sys (V := V) n z).all) (hp : a.p = b.p) (hk : a.k = b.k)
    (h1 : s.st a = .active) (h2 : s.st b = .active) (hm : strideOf n a % 3 = strideOf n b % 3) : a = b := by
  have key : ∀ a b : XAct, a ∈ (sys (V := V) n z).all → b ∈ (sys (V := V) n z).all → a.p = b.p → a.k = b.k →
      s.st a = .active → s.st b = .active → strideOf n a % 3 = strideOf n b % 3 → strideOf n a < strideOf n b → False := by
    intro a b ha hb hp hk h1 h2 hm hlt
    have := done_before h ((strideOf n b - strideOf n a) / 3 - 1) b hb (by rw [h2]; simp) (by omega)
    rw [show strideOf n b - 3 * ((strideOf n b - strideOf n a) / 3 - 1 + 1) = strideOf n a by omega, ← hp, ← hk] at this
    obtain ⟨hp', hq', _⟩ := mem_all.mp ha
    rw [actAt_stride hp' hq', h1] at this
    cases this
  rcases Nat.lt_trichotomy (strideOf n a) (strideOf n b) with hlt | he | hlt
  · exact (key a b ha hb hp hk h1 h2 hm hlt).elim
  · obtain ⟨ha1, ha2, _⟩ := mem_all.mp ha
    obtain ⟨hb1, hb2, _⟩ := mem_all.mp hb
    rw [← actAt_stride ha1 ha2, ← actAt_stride hb1 hb2, he, hp, hk]
  · exact (key b a hb ha hp.symm hk.symm h2 h1 hm.symm hlt).elim

/-- C97: a rank never has more than three sends, or more than three receives, in progress. -/
theorem C97_window (n : Nat) (z : Sizes) (M0 : Loc → V) (s : State XAct Loc V) (h : Reach (sys n z) M0 s)
    (p : Nat) (k : Kind) :
    ((sys (V := V) n z).all.filter fun a => decide (a.p = p ∧ a.k = k ∧ s.st a = .active)).length ≤ 3 := by
  rw [← List.length_map (f := fun a => strideOf n a % 3)]
  apply Os.length_le_of_lt
  · unfold List.Nodup
    rw [List.pairwise_map]
    refine ((nodup_all n z).filter _).imp_of_mem ?_
    intro a b ha hb hne e
    simp only [List.mem_filter, decide_eq_true_eq] at ha hb
    exact hne (active_unique h ha.1 hb.1 (ha.2.1.trans hb.2.1.symm) (ha.2.2.1.trans hb.2.2.1.symm) ha.2.2.2 hb.2.2.2 e)
  · intro x hx
    obtain ⟨a, _, rfl⟩ := List.mem_map.mp hx
    omega

/-- The values in receive buffers and messages all satisfy `P`. -/
def OnlyP (P : V → Prop) (s : State XAct Loc V) : Prop :=
  (∀ p x, P (s.mem (.res p x))) ∧ ∀ a pl, s.net a = .eager pl → ∀ v ∈ pl, P v

theorem onlyP_reach {P : V → Prop} {n : Nat} {z : Sizes} {M0 : Loc → V} (h0 : ∀ p x, P (M0 (.res p x)))
    {s : State XAct Loc V} (h : Reach (sys n z) M0 s) : OnlyP P s := by
  have hread : ∀ (M : Loc → V) (a : XAct), (∀ p x, P (M (.res p x))) →
      ∀ v ∈ ((sys (V := V) n z).reads a).map M, P v := by
    intro M a hM v hv
    obtain ⟨l, hl, rfl⟩ := List.mem_map.mp hv
    simp only [sys] at hl
    split at hl
    · obtain ⟨x, _, rfl⟩ := List.mem_map.mp hl
      exact hM _ _
    · simp at hl
  have heff : ∀ (M : Loc → V) (r : XAct) (pl : List V), (∀ p x, P (M (.res p x))) → (∀ v ∈ pl, P v) →
      ∀ p x, P ((sys (V := V) n z).eff r pl M (.res p x)) := by
    intro M r pl hM hpl p x
    simp only [sys]
    split
    · simp only [recvEff]
      split
      · cases hx : pl[x]? with
        | none => exact hM p x
        | some v => exact hpl v (List.mem_of_getElem? hx)
      · exact hM p x
    · exact hM p x
  have hnet : ∀ {f : XAct → Net V} {a : XAct} {y : Net V}, (∀ a pl, f a = .eager pl → ∀ v ∈ pl, P v) →
      (∀ pl, y = .eager pl → ∀ v ∈ pl, P v) → ∀ b pl, upd f a y b = .eager pl → ∀ v ∈ pl, P v := by
    intro f a y h1 h2 b pl hb
    unfold upd at hb
    split at hb
    · exact h2 pl hb
    · exact h1 b pl hb
  induction h with
  | init => exact ⟨h0, fun a pl h => by cases h⟩
  | step _ hs ih =>
    obtain ⟨hm, hn⟩ := ih
    cases hs with
    | start a h hi hd => exact ⟨hm, hn⟩
    | postEager a h hk hi hu =>
      refine ⟨hm, hnet hn ?_⟩
      intro pl e
      cases e
      exact hread _ a hm
    | postRdvz a h hk hi hu => exact ⟨hm, hnet hn (fun pl e => by cases e)⟩
    | ack a h hk hi hu => exact ⟨hm, hn⟩
    | recvEager a r pl h hk hr hkr hi hu hkey =>
      exact ⟨heff _ r pl hm (hn a pl hu), hnet hn (fun pl e => by cases e)⟩
    | recvRdvz a r h hk hr hkr hi hu hkey =>
      exact ⟨heff _ r _ hm (hread _ a hm), hnet hn (fun pl e => by cases e)⟩
    | «local» a h hk hi => exact ⟨heff _ a [] hm (by simp), hn⟩

/-- Start of the block for or from rank `q` in a packed buffer with the given counts. -/
def offsetOf (cnt : Nat → Nat) (q : Nat) : Nat := ((List.range q).map cnt).sum

/-- Specification of `MPI_Alltoallv`: block `q` of the send buffer of `p` is found in block `p` of
the receive buffer of `q`. -/
def DeliveredV (n : Nat) (sc : Nat → Nat → Nat) (M0 mem : Loc → V) : Prop :=
  ∀ p q x, p < n → q < n → x < sc p q →
    mem (.res q (offsetOf (fun p => sc p q) p + x)) = M0 (.src p (offsetOf (sc p) q + x))

/-- C97, refuted part: no execution delivers the data, whatever the number of ranks and the
counts, unless nothing is to be sent.  The send buffers are not used at all: if the send
buffers hold `true` and the receive buffers `false`, all receive buffers hold `false` in
every state. -/
theorem C97_data_refuted (n : Nat) (sc rc : Nat → Nat → Nat) (p q : Nat) (hp : p < n) (hq : q < n)
    (h1 : 0 < sc p q) :
    ∃ M0 : Loc → Bool, ∀ s, Reach (sys n (alltoallvSizes sc rc)) M0 s → ¬ DeliveredV n sc M0 s.mem := by
  refine ⟨fun l => match l with | .src _ _ => true | .res _ _ => false, ?_⟩
  intro s hr hd
  have h2 := (onlyP_reach (P := fun v => v = false) (fun _ _ => rfl) hr).1
  have h3 := hd p q 0 hp hq h1
  rw [h2] at h3
  cases h3

/-- C97, refuted part: the direct `MPI_Alltoall` of `m > 0` elements per pair sends `q * m` elements
to rank `q`; only the messages to rank 1 have the right size, rank 0 gets nothing. -/
theorem C97_alltoall_volume_refuted (n m p q : Nat) (hm : 0 < m) (hq : q ≠ 1) :
    ((sys (V := V) n (alltoallSizes m)).reads ⟨p, .send, q⟩).length = q * m ∧
      ((sys (V := V) n (alltoallSizes m)).reads ⟨p, .send, q⟩).length ≠ m := by
  have e : ((sys (V := V) n (alltoallSizes m)).reads ⟨p, .send, q⟩).length = q * m := by
    simp [sys, alltoallSizes, Nat.mul_comm]
  refine ⟨e, ?_⟩
  rw [e]
  intro h
  exact hq (Nat.eq_of_mul_eq_mul_right hm (by rw [h, Nat.one_mul]))

/-- Five ranks: rank 1 sends to 1, 2, 3 at once, to 4 after the send to 1, and to 0 after the send to 2; it
receives from 1, 0, 4, then 3, then 2. -/
example : (initDag 5 1).filter (fun c => c.2.k == .send) =
    [(none, ⟨1, .send, 1⟩), (none, ⟨1, .send, 2⟩), (none, ⟨1, .send, 3⟩), (some ⟨1, .send, 1⟩, ⟨1, .send, 4⟩),
     (some ⟨1, .send, 2⟩, ⟨1, .send, 0⟩)] := by decide +kernel

example : (initDag 5 1).filter (fun c => c.2.k == .recv) =
    [(none, ⟨1, .recv, 1⟩), (none, ⟨1, .recv, 0⟩), (none, ⟨1, .recv, 4⟩), (some ⟨1, .recv, 1⟩, ⟨1, .recv, 3⟩),
     (some ⟨1, .recv, 0⟩, ⟨1, .recv, 2⟩)] := by decide +kernel

end SST.Coll.Direct
