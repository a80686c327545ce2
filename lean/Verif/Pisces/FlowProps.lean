import Verif.Pisces.Flow
/-
C50 for the packet-flow network model.
-/
set_option autoImplicit false
namespace SST.Pisces

variable {E : Type} [DecidableEq E]

/-! ### Sums -/

theorem sum_range_update {n k : Nat} {f g : Nat → Nat} (hk : k < n) (h : ∀ j, j ≠ k → g j = f j) :
    ((List.range n).map g).sum + f k = ((List.range n).map f).sum + g k := by
  induction n with
  | zero => omega
  | succ n ih =>
    simp only [List.range_succ, List.map_append, List.map_cons, List.map_nil, List.sum_append_nat, List.sum_cons, List.sum_nil, Nat.add_zero]
    by_cases e : k = n
    · subst e
      have : (List.range k).map g = (List.range k).map f := by
        apply List.map_congr_left
        intro j hj
        rw [List.mem_range] at hj
        exact h j (by omega)
      rw [this]
      omega
    · have := ih (by omega)
      rw [h n (by omega)]
      omega

theorem inFlight_append (a b : List (Msg E)) (e : E) (i v : Nat) : inFlight (a ++ b) e i v = inFlight a e i v + inFlight b e i v := by
  unfold inFlight
  rw [List.map_append, List.sum_append_nat]

theorem returning_append (a b : List (Msg E)) (e : E) (p v : Nat) : returning (a ++ b) e p v = returning a e p v + returning b e p v := by
  unfold returning
  rw [List.map_append, List.sum_append_nat]

theorem came_append (a b : List Pkt) (i v : Nat) : came (a ++ b) i v = came a i v + came b i v := by
  unfold came
  rw [List.map_append, List.sum_append_nat]

theorem came_perm {a b : List Pkt} (h : a.Perm b) (i v : Nat) : came a i v = came b i v := by
  unfold came
  exact (h.map _).sum_nat

theorem inFlight_pay (e : E) (i id b v : Nat) (e' : E) (i' v' : Nat) :
    inFlight [Msg.pay e i id b v] e' i' v' = if e = e' ∧ i = i' ∧ v = v' then b else 0 := by
  simp [inFlight]

theorem inFlight_credit (e : E) (p v n : Nat) (e' : E) (i' v' : Nat) : inFlight [Msg.credit e p v n] e' i' v' = 0 := by
  simp [inFlight]

theorem returning_pay (e : E) (i id b v : Nat) (e' : E) (i' v' : Nat) : returning [Msg.pay e i id b v] e' i' v' = 0 := by
  simp [returning]

theorem returning_credit (e : E) (p v n : Nat) (e' : E) (p' v' : Nat) :
    returning [Msg.credit e p v n] e' p' v' = if e = e' ∧ p = p' ∧ v = v' then n else 0 := by
  simp [returning]

section
variable {C : Cfg E} (hj : C.Joined) {e2 e3 : E} {p2 i3 : Nat} (hl : C.out e2 p2 = some (e3, i3))
include hj hl

theorem emit_returning (e : E) (x : Pkt) (v : Nat) :
    returning (C.emit e x) e2 p2 v = if e = e3 then (if x.inp = i3 ∧ x.vc = v then x.bytes else 0) else 0 := by
  unfold Cfg.emit
  rw [returning_append]
  have h1 : ∀ o : Option (E × Nat), returning (match (generalizing := false) o with
      | none => []
      | some (e', i) => [Msg.pay e' i x.id x.bytes (C.dvc e x)]) e2 p2 v = 0 := by
    intro o
    rcases o with _ | ⟨a, b⟩ <;> simp [returning]
  refine (congrArg (_ + ·) (h1 (C.out e x.out))).trans ?_
  rw [Nat.add_zero]
  split
  · rename_i hb
    split
    · rename_i he
      rw [if_neg]
      · simp [returning]
      · rintro ⟨hi, _⟩
        have := (hj _ _ _ _).1 hl
        rw [← he, ← hi, hb] at this
        cases this
    · simp [returning]
  · rename_i e' p hb
    rw [returning_credit]
    have hk : (e' = e2 ∧ p = p2) ↔ (e = e3 ∧ x.inp = i3) := by
      constructor
      · rintro ⟨rfl, rfl⟩
        have := (hj _ _ _ _).2 hb
        rw [hl] at this
        simp only [Option.some.injEq, Prod.mk.injEq] at this
        exact ⟨this.1.symm, this.2.symm⟩
      · rintro ⟨rfl, rfl⟩
        have := (hj _ _ _ _).1 hl
        rw [hb] at this
        simp only [Option.some.injEq, Prod.mk.injEq] at this
        exact this
    by_cases h3 : e = e3 ∧ x.inp = i3
    · obtain ⟨h4, h5⟩ := hk.2 h3
      rw [if_pos h3.1]
      simp only [h4, h5, h3.2, true_and]
    · have h4 : ¬ (e' = e2 ∧ p = p2) := fun h => h3 (hk.1 h)
      rw [if_neg (fun h => h4 ⟨h.1, h.2.1⟩)]
      split
      · rw [if_neg]
        rintro ⟨h5, _⟩
        exact h3 ⟨by assumption, h5⟩
      · rfl

theorem emits_returning (e : E) (l : List Pkt) (v : Nat) :
    returning (l.flatMap (C.emit e)) e2 p2 v = if e = e3 then came l i3 v else 0 := by
  induction l with
  | nil => simp [returning, came]
  | cons x l ih =>
    rw [List.flatMap_cons, returning_append, ih, emit_returning hj hl]
    split
    · simp [came]
    · rfl

theorem emit_inFlight (e : E) (x : Pkt) (v : Nat) :
    inFlight (C.emit e x) e3 i3 v = if e = e2 ∧ x.out = p2 ∧ C.dvc e x = v then x.bytes else 0 := by
  unfold Cfg.emit
  rw [inFlight_append]
  have h1 : ∀ o : Option (E × Nat), inFlight (match (generalizing := false) o with
      | none => []
      | some (e', p) => [Msg.credit e' p x.vc x.bytes]) e3 i3 v = 0 := by
    intro o
    rcases o with _ | ⟨a, b⟩ <;> simp [inFlight]
  refine (congrArg (· + _) (h1 (C.back e x.inp))).trans ?_
  rw [Nat.zero_add]
  split
  · rename_i ho
    rw [if_neg]
    · simp [inFlight]
    · rintro ⟨rfl, rfl, _⟩
      rw [hl] at ho
      cases ho
  · rename_i e' i ho
    rw [inFlight_pay]
    have hk : (e' = e3 ∧ i = i3) ↔ (e = e2 ∧ x.out = p2) := by
      constructor
      · rintro ⟨rfl, rfl⟩
        have h1 := (hj _ _ _ _).1 ho
        have h2 := (hj _ _ _ _).1 hl
        rw [h1] at h2
        simp only [Option.some.injEq, Prod.mk.injEq] at h2
        exact h2
      · rintro ⟨rfl, rfl⟩
        rw [hl] at ho
        simp only [Option.some.injEq, Prod.mk.injEq] at ho
        exact ⟨ho.1.symm, ho.2.symm⟩
    by_cases h : e = e2 ∧ x.out = p2
    · obtain ⟨h4, h5⟩ := hk.2 h
      simp only [h4, h5, h.1, h.2, true_and]
    · rw [if_neg (fun h' => h (hk.1 ⟨h'.1, h'.2.1⟩)), if_neg (fun h' => h ⟨h'.1, h'.2.1⟩)]

theorem slot_inj {n a b c d : Nat} (h : a * n + b = c * n + d) (hb : b < n) (hd : d < n) : a = c ∧ b = d := by
  have h1 : (a * n + b) / n = a := by
    rw [Nat.mul_comm, Nat.mul_add_div (by omega), Nat.div_eq_of_lt hb, Nat.add_zero]
  have h2 : (c * n + d) / n = c := by
    rw [Nat.mul_comm, Nat.mul_add_div (by omega), Nat.div_eq_of_lt hd, Nat.add_zero]
  have : a = c := by rw [← h1, ← h2, h]
  subst this
  omega

theorem emits_inFlight (e : E) (k : Nat) (l : List Pkt) (hk : ∀ x ∈ l, C.slot e x = k ∧ C.dvc e x < C.nvc e) {v : Nat} (hv : v < C.nvc e2) :
    inFlight (l.flatMap (C.emit e)) e3 i3 v = if e = e2 ∧ k = p2 * C.nvc e2 + v then total l else 0 := by
  induction l with
  | nil => simp [inFlight, total]
  | cons x l ih =>
    rw [List.flatMap_cons, inFlight_append, ih (fun y hy => hk y (List.mem_cons_of_mem _ hy)), emit_inFlight hj hl]
    obtain ⟨h1, h2⟩ := hk x (List.mem_cons_self ..)
    unfold Cfg.slot at h1
    by_cases he : e = e2
    · subst he
      by_cases hkv : k = p2 * C.nvc e + v
      · have := slot_inj hj hl (h1.trans hkv) h2 hv
        rw [if_pos ⟨rfl, this⟩, if_pos ⟨rfl, hkv⟩, if_pos ⟨rfl, hkv⟩]
        simp [total]
      · rw [if_neg, if_neg (fun h => hkv h.2), if_neg (fun h => hkv h.2)]
        rintro ⟨_, h3, h4⟩
        apply hkv
        rw [← h1, h3, h4]
    · rw [if_neg (fun h => he h.1), if_neg (fun h => he h.1), if_neg (fun h => he h.1)]

end

/-! ### The invariant -/

/-- The credits held, the bytes in flight, the bytes waiting and the credits on their way back. -/
def Cfg.bal (C : Cfg E) (st : Net E) (e : E) (p v : Nat) (e' : E) (i : Nat) : Int :=
  (st.slots e (p * C.nvc e + v)).cred + inFlight st.wire e' i v + C.buffered st e' i v + returning st.wire e p v

/-- Invariant of credits, queues and messages under way. -/
structure Inv (C : Cfg E) (st : Net E) : Prop where
  ok : ∀ (e : E) (k : Nat) (x : Pkt), x ∈ (st.slots e k).queue → C.slot e x = k ∧ C.dvc e x < C.nvc e ∧ x.out < C.ports e ∧
    ∀ e0 p0, C.back e x.inp = some (e0, p0) → x.vc < C.nvc e0 ∧ p0 < C.ports e0
  pay : ∀ e i id b v, Msg.pay e i id b v ∈ st.wire → ∀ e0 p0, C.back e i = some (e0, p0) → v < C.nvc e0 ∧ p0 < C.ports e0
  cr : ∀ e p v n, Msg.credit e p v n ∈ st.wire → v < C.nvc e ∧ p < C.ports e ∧ ∃ e' i, C.out e p = some (e', i)
  nonneg : ∀ e k, 0 ≤ (st.slots e k).cred
  bal : ∀ e p v e' i, C.out e p = some (e', i) → p < C.ports e → v < C.nvc e → C.bal st e p v e' i = (C.init e p / C.nvc e : Nat)

theorem slot_lt {P n p v : Nat} (hp : p < P) (hv : v < n) : p * n + v < P * n := by
  calc p * n + v < p * n + n := by omega
    _ = (p + 1) * n := by rw [Nat.succ_mul]
    _ ≤ P * n := Nat.mul_le_mul_right _ hp

section
variable {C : Cfg E} (hj : C.Joined)
include hj

/-- An event at slot `k` of `e`. -/
theorem handle_bal {st : Net E} {e : E} {k : Nat} {ev : Ev} (hk : k < C.ports e * C.nvc e)
    (hok : ∀ x, x ∈ (st.slots e k).queue ++ pkts [ev] → C.slot e x = k ∧ C.dvc e x < C.nvc e)
    {e2 e3 : E} {p2 i3 v : Nat} (hl : C.out e2 p2 = some (e3, i3)) (hv : v < C.nvc e2) :
    C.bal (C.handle st e k ev) e2 p2 v e3 i3 = C.bal st e2 p2 v e3 i3 + (if e = e2 ∧ k = p2 * C.nvc e2 + v then back [ev] else 0 : Nat) +
      (if e = e3 then came (pkts [ev]) i3 v else 0 : Nat) := by
  have hperm := step_perm (C.all e) (st.slots e k) ev
  have hcred := step_cred (C.all e) (st.slots e k) ev
  have hsent : ∀ x ∈ (step (C.all e) (st.slots e k) ev).2, C.slot e x = k ∧ C.dvc e x < C.nvc e := by
    intro x hx
    exact hok x (hperm.mem_iff.1 (List.mem_append.2 (Or.inl hx)))
  have hcame := came_perm hperm i3 v
  rw [came_append, came_append] at hcame
  unfold Cfg.bal Cfg.handle
  simp only [inFlight_append, returning_append, emits_inFlight hj hl e k _ hsent hv, emits_returning hj hl]
  -- buffered
  have hbuf : C.buffered ⟨setSlot st.slots e k (step (C.all e) (st.slots e k) ev).1,
      st.wire ++ (step (C.all e) (st.slots e k) ev).2.flatMap (C.emit e)⟩ e3 i3 v +
      (if e = e3 then came (step (C.all e) (st.slots e k) ev).2 i3 v else 0) =
      C.buffered st e3 i3 v + (if e = e3 then came (pkts [ev]) i3 v else 0) := by
    unfold Cfg.buffered
    by_cases he : e = e3
    · subst he
      simp only [if_true]
      have h1 := sum_range_update (n := C.ports e * C.nvc e) (k := k)
        (f := fun k' => came (st.slots e k').queue i3 v)
        (g := fun k' => came (setSlot st.slots e k (step (C.all e) (st.slots e k) ev).1 e k').queue i3 v) hk
        (by intro j hj'; simp [setSlot, hj'])
      simp only [setSlot, and_self, if_true] at h1
      simp only [setSlot] at *
      omega
    · simp only [if_neg he, Nat.add_zero]
      have : ∀ k', setSlot st.slots e k (step (C.all e) (st.slots e k) ev).1 e3 k' = st.slots e3 k' := by
        intro k'
        unfold setSlot
        rw [if_neg (fun h => he h.1.symm)]
      simp only [this]
  -- credits
  have hc : (setSlot st.slots e k (step (C.all e) (st.slots e k) ev).1 e2 (p2 * C.nvc e2 + v)).cred +
      (if e = e2 ∧ k = p2 * C.nvc e2 + v then total (step (C.all e) (st.slots e k) ev).2 else 0 : Nat) =
      (st.slots e2 (p2 * C.nvc e2 + v)).cred + (if e = e2 ∧ k = p2 * C.nvc e2 + v then back [ev] else 0 : Nat) := by
    by_cases h : e = e2 ∧ k = p2 * C.nvc e2 + v
    · obtain ⟨rfl, rfl⟩ := h
      simp only [setSlot, and_self, if_true]
      exact hcred
    · rw [if_neg h, if_neg h]
      unfold setSlot
      rw [if_neg (fun h' => h ⟨h'.1.symm, h'.2.symm⟩)]
  generalize hA : C.buffered ⟨setSlot st.slots e k (step (C.all e) (st.slots e k) ev).1,
      st.wire ++ (step (C.all e) (st.slots e k) ev).2.flatMap (C.emit e)⟩ e3 i3 v = A at hbuf ⊢
  generalize (if e = e3 then came (step (C.all e) (st.slots e k) ev).2 i3 v else 0) = B at hbuf ⊢
  generalize (if e = e3 then came (pkts [ev]) i3 v else 0) = D at hbuf ⊢
  generalize (if e = e2 ∧ k = p2 * C.nvc e2 + v then total (step (C.all e) (st.slots e k) ev).2 else 0) = F at hc ⊢
  generalize (if e = e2 ∧ k = p2 * C.nvc e2 + v then back [ev] else 0) = G at hc ⊢
  omega

/-- What the messages of an element look like. -/
theorem emit_ok {e : E} {x : Pkt} (hv : C.dvc e x < C.nvc e) (ho : x.out < C.ports e)
    (hb : ∀ e0 p0, C.back e x.inp = some (e0, p0) → x.vc < C.nvc e0 ∧ p0 < C.ports e0) :
    (∀ e' i id b v, Msg.pay e' i id b v ∈ C.emit e x → ∀ e0 p0, C.back e' i = some (e0, p0) → v < C.nvc e0 ∧ p0 < C.ports e0) ∧
    (∀ e' p v n, Msg.credit e' p v n ∈ C.emit e x → v < C.nvc e' ∧ p < C.ports e' ∧ ∃ e'' i, C.out e' p = some (e'', i)) := by
  unfold Cfg.emit
  constructor
  · intro e' i id b v hm e0 p0 hb0
    rw [List.mem_append] at hm
    rcases hm with hm | hm
    · split at hm <;> simp at hm
    · split at hm
      · simp at hm
      · rename_i h
        simp only [List.mem_singleton, Msg.pay.injEq] at hm
        obtain ⟨rfl, rfl, rfl, rfl, rfl⟩ := hm
        have := (hj _ _ _ _).1 h
        rw [hb0] at this
        simp only [Option.some.injEq, Prod.mk.injEq] at this
        obtain ⟨rfl, rfl⟩ := this
        exact ⟨hv, ho⟩
  · intro e' p v n hm
    rw [List.mem_append] at hm
    rcases hm with hm | hm
    · split at hm
      · simp at hm
      · rename_i h
        simp only [List.mem_singleton, Msg.credit.injEq] at hm
        obtain ⟨rfl, rfl, rfl, rfl⟩ := hm
        obtain ⟨h1, h2⟩ := hb _ _ h
        exact ⟨h1, h2, _, _, (hj _ _ _ _).2 h⟩
    · split at hm <;> simp at hm

theorem handle_inv {st : Net E} {e : E} {k : Nat} {ev : Ev}
    (hq : ∀ (e : E) (k : Nat) (x : Pkt), x ∈ (st.slots e k).queue → C.slot e x = k ∧ C.dvc e x < C.nvc e ∧ x.out < C.ports e ∧
      ∀ e0 p0, C.back e x.inp = some (e0, p0) → x.vc < C.nvc e0 ∧ p0 < C.ports e0)
    (hp : ∀ x ∈ pkts [ev], C.slot e x = k ∧ C.dvc e x < C.nvc e ∧ x.out < C.ports e ∧
      ∀ e0 p0, C.back e x.inp = some (e0, p0) → x.vc < C.nvc e0 ∧ p0 < C.ports e0)
    (hpay : ∀ e i id b v, Msg.pay e i id b v ∈ st.wire → ∀ e0 p0, C.back e i = some (e0, p0) → v < C.nvc e0 ∧ p0 < C.ports e0)
    (hcr : ∀ e p v n, Msg.credit e p v n ∈ st.wire → v < C.nvc e ∧ p < C.ports e ∧ ∃ e' i, C.out e p = some (e', i))
    (hn : ∀ e k, 0 ≤ (st.slots e k).cred) (hcap : (st.slots e k).cred + back [ev] < 4294967296)
    (hbal : ∀ e2 p v e' i, C.out e2 p = some (e', i) → p < C.ports e2 → v < C.nvc e2 →
      C.bal (C.handle st e k ev) e2 p v e' i = (C.init e2 p / C.nvc e2 : Nat)) :
    Inv C (C.handle st e k ev) := by
  have hperm := step_perm (C.all e) (st.slots e k) ev
  have hall : ∀ x, x ∈ (step (C.all e) (st.slots e k) ev).2 ++ (step (C.all e) (st.slots e k) ev).1.queue →
      C.slot e x = k ∧ C.dvc e x < C.nvc e ∧ x.out < C.ports e ∧
      ∀ e0 p0, C.back e x.inp = some (e0, p0) → x.vc < C.nvc e0 ∧ p0 < C.ports e0 := by
    intro x hx
    rcases List.mem_append.1 (hperm.mem_iff.1 hx) with h | h
    · exact hq e k x h
    · exact hp x h
  refine ⟨?_, ?_, ?_, ?_, hbal⟩
  · intro e' k' x hx
    unfold Cfg.handle setSlot at hx
    simp only at hx
    split at hx
    · rename_i h
      obtain ⟨rfl, rfl⟩ := h
      exact hall x (List.mem_append.2 (Or.inr hx))
    · exact hq e' k' x hx
  · intro e' i id b v hm
    unfold Cfg.handle at hm
    simp only [List.mem_append, List.mem_flatMap] at hm
    rcases hm with hm | ⟨x, hx, hm⟩
    · exact hpay e' i id b v hm
    · obtain ⟨_, h2, h3, h4⟩ := hall x (List.mem_append.2 (Or.inl hx))
      exact (emit_ok hj h2 h3 h4).1 e' i id b v hm
  · intro e' p v n hm
    unfold Cfg.handle at hm
    simp only [List.mem_append, List.mem_flatMap] at hm
    rcases hm with hm | ⟨x, hx, hm⟩
    · exact hcr e' p v n hm
    · obtain ⟨_, h2, h3, h4⟩ := hall x (List.mem_append.2 (Or.inl hx))
      exact (emit_ok hj h2 h3 h4).2 e' p v n hm
  · intro e' k'
    unfold Cfg.handle setSlot
    simp only
    split
    · exact step_nonneg _ _ _ (hn e k) hcap
    · exact hn e' k'

theorem bal_wire (st : Net E) (w : List (Msg E)) (e : E) (p v : Nat) (e' : E) (i : Nat) :
    C.bal ⟨st.slots, w⟩ e p v e' i + inFlight st.wire e' i v + returning st.wire e p v =
      C.bal st e p v e' i + inFlight w e' i v + returning w e p v := by
  unfold Cfg.bal Cfg.buffered
  simp only
  omega

/-- Credits never exceed the initial amount, also with those on their way. -/
theorem cred_le {st : Net E} (h : Inv C st) {e : E} {p v : Nat} (hp : p < C.ports e) (hv : v < C.nvc e) {e' : E} {i : Nat}
    (hl : C.out e p = some (e', i)) : (st.slots e (p * C.nvc e + v)).cred + returning st.wire e p v ≤ (C.init e p / C.nvc e : Nat) := by
  have := h.bal e p v e' i hl hp hv
  unfold Cfg.bal at this
  omega

variable (hcap : ∀ e p, C.init e p < 2147483648)
include hcap

theorem inv {st : Net E} (h : Reach C st) : Inv C st := by
  induction h with
  | start =>
    refine ⟨?_, ?_, ?_, ?_, ?_⟩
    · intro e k x hx; simp [Cfg.start] at hx
    · intro e i id b v hm; simp [Cfg.start] at hm
    · intro e p v n hm; simp [Cfg.start] at hm
    · intro e k
      simp only [Cfg.start]
      exact Int.natCast_nonneg _
    · intro e p v e' i hl hp hv
      unfold Cfg.bal Cfg.start Cfg.buffered
      simp only [inFlight, returning, came, List.map_nil, List.sum_nil]
      have : ∀ n, ((List.range n).map fun _ => 0).sum = 0 := by
        intro n
        induction n with
        | zero => rfl
        | succ n ih => rw [List.range_succ, List.map_append, List.sum_append_nat, ih]; rfl
      have hd : (p * C.nvc e + v) / C.nvc e = p := by
        rw [Nat.mul_comm, Nat.mul_add_div (by omega), Nat.div_eq_of_lt hv, Nat.add_zero]
      rw [this, hd]
      simp
  | @next st st' hr n ih =>
    have hinit : ∀ e p, (C.init e p / C.nvc e : Nat) < 2147483648 := fun e p => Nat.lt_of_le_of_lt (Nat.div_le_self _ _) (hcap e p)
    cases n with
    | @arrive a b e x h hs ho hv hl =>
      obtain ⟨⟨e1, i1⟩, hl⟩ := Option.isSome_iff_exists.1 hl
      have hx : ∀ y ∈ pkts [Ev.pkt x], C.slot e y = C.slot e x ∧ C.dvc e y < C.nvc e ∧ y.out < C.ports e ∧
          ∀ e0 p0, C.back e y.inp = some (e0, p0) → y.vc < C.nvc e0 ∧ p0 < C.ports e0 := by
        intro y hy
        simp only [pkts, List.mem_singleton] at hy
        subst hy
        refine ⟨rfl, hv, ho, ?_⟩
        intro e0 p0 hb
        exact ih.pay e y.inp y.id y.bytes y.vc (by rw [h]; simp) e0 p0 hb
      refine handle_inv hj (st := ⟨st.slots, a ++ b⟩) ih.ok hx ?_ ?_ ih.nonneg ?_ ?_
      · intro e' i id bb v hm
        refine ih.pay e' i id bb v ?_
        rw [h]
        simp only [List.mem_append, List.mem_cons] at hm ⊢
        rcases hm with hm | hm
        · exact Or.inl hm
        · exact Or.inr (Or.inr hm)
      · intro e' p v n hm
        refine ih.cr e' p v n ?_
        rw [h]
        simp only [List.mem_append, List.mem_cons] at hm ⊢
        rcases hm with hm | hm
        · exact Or.inl hm
        · exact Or.inr (Or.inr hm)
      · have := cred_le hj ih ho hv hl
        have := hinit e x.out
        simp only [back]
        show (st.slots e (C.slot e x)).cred + _ < _
        unfold Cfg.slot
        omega
      · intro e2 p2 v e3 i3 hl2 hp2 hv2
        have hh := handle_bal hj (st := ⟨st.slots, a ++ b⟩) (e := e) (k := C.slot e x) (ev := .pkt x) (slot_lt ho hv) (by
          intro y hy
          rcases List.mem_append.1 hy with hy | hy
          · have := ih.ok e (C.slot e x) y hy
            exact ⟨this.1, this.2.1⟩
          · have := hx y hy
            exact ⟨this.1, this.2.1⟩) hl2 hv2
        have hw := bal_wire hj st (a ++ b) e2 p2 v e3 i3
        have hb := ih.bal e2 p2 v e3 i3 hl2 hp2 hv2
        rw [hh, ← hb]
        have h1 : inFlight st.wire e3 i3 v = inFlight (a ++ b) e3 i3 v + (if e = e3 ∧ x.inp = i3 ∧ x.vc = v then x.bytes else 0) := by
          rw [h, show a ++ Msg.pay e x.inp x.id x.bytes x.vc :: b = a ++ ([Msg.pay e x.inp x.id x.bytes x.vc] ++ b) from rfl]
          rw [inFlight_append, inFlight_append, inFlight_append, inFlight_pay]
          omega
        have h2 : returning st.wire e2 p2 v = returning (a ++ b) e2 p2 v := by
          rw [h, show a ++ Msg.pay e x.inp x.id x.bytes x.vc :: b = a ++ ([Msg.pay e x.inp x.id x.bytes x.vc] ++ b) from rfl]
          rw [returning_append, returning_append, returning_append, returning_pay]
          omega
        have h3 : (if e = e3 then came (pkts [Ev.pkt x]) i3 v else 0) = (if e = e3 ∧ x.inp = i3 ∧ x.vc = v then x.bytes else 0) := by
          by_cases he : e = e3
          · simp [he, pkts, came]
          · simp [he]
        have h4 : (if e = e2 ∧ C.slot e x = p2 * C.nvc e2 + v then back [Ev.pkt x] else 0) = 0 := by
          simp [back]
        rw [h3, h4]
        omega
    | @eject a b e i id bytes vc e' p h hs hb =>
      have hpv := ih.pay e i id bytes vc (by rw [h]; simp) e' p hb
      have hback := (hj _ _ _ _).2 hb
      refine ⟨ih.ok, ?_, ?_, ih.nonneg, ?_⟩
      · intro e1 i1 id1 b1 v1 hm
        refine ih.pay e1 i1 id1 b1 v1 ?_
        rw [h]
        simp only [List.mem_append, List.mem_cons, List.not_mem_nil, or_false, reduceCtorEq] at hm ⊢
        rcases hm with hm | hm
        · exact Or.inl hm
        · exact Or.inr (Or.inr hm)
      · intro e1 p1 v1 n1 hm
        simp only [List.mem_append, List.mem_cons, List.not_mem_nil, or_false] at hm
        rcases hm with (hm | hm) | hm
        · exact ih.cr e1 p1 v1 n1 (by rw [h]; simp [hm])
        · exact ih.cr e1 p1 v1 n1 (by rw [h]; simp [hm])
        · simp only [Msg.credit.injEq] at hm
          obtain ⟨rfl, rfl, rfl, rfl⟩ := hm
          exact ⟨hpv.1, hpv.2, e, i, hback⟩
      · intro e2 p2 v e3 i3 hl2 hp2 hv2
        have hw := bal_wire hj st (a ++ b ++ [.credit e' p vc bytes]) e2 p2 v e3 i3
        rw [← ih.bal e2 p2 v e3 i3 hl2 hp2 hv2]
        rw [h, show a ++ Msg.pay e i id bytes vc :: b = a ++ ([Msg.pay e i id bytes vc] ++ b) from rfl] at hw
        simp only [inFlight_append, returning_append, inFlight_pay, inFlight_credit, returning_pay, returning_credit] at hw
        have hk : (e' = e2 ∧ p = p2) ↔ (e = e3 ∧ i = i3) := by
          constructor
          · rintro ⟨rfl, rfl⟩
            rw [hl2] at hback
            simp only [Option.some.injEq, Prod.mk.injEq] at hback
            exact ⟨hback.1.symm, hback.2.symm⟩
          · rintro ⟨rfl, rfl⟩
            have := (hj _ _ _ _).1 hl2
            rw [hb] at this
            simp only [Option.some.injEq, Prod.mk.injEq] at this
            exact this
        by_cases hc : e = e3 ∧ i = i3
        · obtain ⟨h4, h5⟩ := hk.2 hc
          obtain ⟨h6, h7⟩ := hc
          subst h4 h5 h6 h7
          simp only [true_and] at hw
          generalize (if vc = v then bytes else 0) = X at hw
          omega
        · rw [if_neg (fun h' => hc ⟨h'.1, h'.2.1⟩), if_neg (fun h' => hc (hk.1 ⟨h'.1, h'.2.1⟩))] at hw
          omega
    | @credit a b e p vc n h =>
      obtain ⟨hv, hp, e1, i1, hl⟩ := ih.cr e p vc n (by rw [h]; simp)
      have hret : returning st.wire e p vc = returning (a ++ b) e p vc + n := by
        rw [h, show a ++ Msg.credit e p vc n :: b = a ++ ([Msg.credit e p vc n] ++ b) from rfl]
        simp only [returning_append, returning_credit, and_self, if_true]
        omega
      refine handle_inv hj (st := ⟨st.slots, a ++ b⟩) ih.ok (by intro x hx; simp [pkts] at hx) ?_ ?_ ih.nonneg ?_ ?_
      · intro e' i id bb v hm
        refine ih.pay e' i id bb v ?_
        rw [h]
        simp only [List.mem_append, List.mem_cons] at hm ⊢
        rcases hm with hm | hm
        · exact Or.inl hm
        · exact Or.inr (Or.inr hm)
      · intro e' p v n hm
        refine ih.cr e' p v n ?_
        rw [h]
        simp only [List.mem_append, List.mem_cons] at hm ⊢
        rcases hm with hm | hm
        · exact Or.inl hm
        · exact Or.inr (Or.inr hm)
      · have := cred_le hj ih hp hv hl
        have := hinit e p
        simp only [back, Nat.add_zero]
        omega
      · intro e2 p2 v e3 i3 hl2 hp2 hv2
        have hh := handle_bal hj (st := ⟨st.slots, a ++ b⟩) (e := e) (k := p * C.nvc e + vc) (ev := .credit n) (slot_lt hp hv) (by
          intro y hy
          simp only [pkts, List.append_nil] at hy
          have := ih.ok e _ y hy
          exact ⟨this.1, this.2.1⟩) hl2 hv2
        have hw := bal_wire hj st (a ++ b) e2 p2 v e3 i3
        rw [hh, ← ih.bal e2 p2 v e3 i3 hl2 hp2 hv2]
        rw [h, show a ++ Msg.credit e p vc n :: b = a ++ ([Msg.credit e p vc n] ++ b) from rfl] at hw
        simp only [inFlight_append, returning_append, inFlight_credit, returning_credit] at hw
        have h3 : (if e = e3 then came (pkts [Ev.credit n]) i3 v else 0) = 0 := by simp [pkts, came]
        have h4 : (if e = e2 ∧ p * C.nvc e + vc = p2 * C.nvc e2 + v then back [Ev.credit n] else 0) =
            (if e = e2 ∧ p = p2 ∧ vc = v then n else 0) := by
          by_cases he : e = e2
          · subst he
            by_cases hpp : p = p2 ∧ vc = v
            · obtain ⟨rfl, rfl⟩ := hpp
              simp [back]
            · rw [if_neg, if_neg (fun h => hpp h.2)]
              rintro ⟨_, h⟩
              exact hpp (slot_inj hj hl2 h hv hv2)
          · rw [if_neg (fun h => he h.1), if_neg (fun h => he h.1)]
        rw [h3, h4]
        omega
    | @inject e x hb hv ho hl hspace =>
      obtain ⟨⟨e1, i1⟩, hl⟩ := Option.isSome_iff_exists.1 hl
      have hx := emit_ok hj hv ho (fun e0 p0 h => by rw [hb] at h; cases h)
      refine ⟨?_, ?_, ?_, ?_, ?_⟩
      · intro e' k y hy
        apply ih.ok e' k y
        simp only [setSlot] at hy
        split at hy
        · rename_i h
          rw [h.1, h.2]
          exact hy
        · exact hy
      · intro e' i id b v hm
        rw [List.mem_append] at hm
        rcases hm with hm | hm
        · exact ih.pay e' i id b v hm
        · exact hx.1 e' i id b v hm
      · intro e' p v n hm
        rw [List.mem_append] at hm
        rcases hm with hm | hm
        · exact ih.cr e' p v n hm
        · exact hx.2 e' p v n hm
      · intro e' k
        simp only [setSlot]
        split
        · simp only; omega
        · exact ih.nonneg e' k
      · intro e2 p2 v e3 i3 hl2 hp2 hv2
        rw [← ih.bal e2 p2 v e3 i3 hl2 hp2 hv2]
        unfold Cfg.bal
        simp only [inFlight_append, returning_append, emit_inFlight hj hl2, emit_returning hj hl2]
        have h1 : C.buffered ⟨setSlot st.slots e (C.slot e x) { (st.slots e (C.slot e x)) with cred := (st.slots e (C.slot e x)).cred - x.bytes },
            st.wire ++ C.emit e x⟩ e3 i3 v = C.buffered st e3 i3 v := by
          unfold Cfg.buffered
          congr 1
          apply List.map_congr_left
          intro k _
          simp only [setSlot]
          split
          · rename_i h
            rw [h.1, h.2]
          · rfl
        have h2 : (if e = e3 then (if x.inp = i3 ∧ x.vc = v then x.bytes else 0) else 0) = 0 := by
          by_cases he : e = e3
          · rw [if_pos he, if_neg]
            rintro ⟨rfl, _⟩
            have := (hj _ _ _ _).1 hl2
            rw [← he, hb] at this
            cases this
          · rw [if_neg he]
        have h3 : (setSlot st.slots e (C.slot e x) { (st.slots e (C.slot e x)) with cred := (st.slots e (C.slot e x)).cred - x.bytes } e2
            (p2 * C.nvc e2 + v)).cred + (if e = e2 ∧ x.out = p2 ∧ C.dvc e x = v then x.bytes else 0 : Nat) =
            (st.slots e2 (p2 * C.nvc e2 + v)).cred := by
          simp only [setSlot]
          by_cases hc : e = e2 ∧ x.out = p2 ∧ C.dvc e x = v
          · obtain ⟨rfl, rfl, rfl⟩ := hc
            unfold Cfg.slot
            simp
          · rw [if_neg hc, if_neg]
            · simp
            · rintro ⟨rfl, h⟩
              have := slot_inj hj hl2 h hv2 hv
              exact hc ⟨rfl, this.1.symm, this.2.symm⟩
        rw [h1, h2]
        generalize (if e = e2 ∧ x.out = p2 ∧ C.dvc e x = v then x.bytes else 0) = X at h3 ⊢
        simp only at h3 ⊢
        omega

end

/-- C50: in every state of every network of packet-flow elements, for every output port, channel
and the input port behind it: the credits the sender holds, the bytes in flight to the receiver,
the bytes the receiver holds and the credits on their way back add up to the initial credits;
the sender's credits are never negative. -/
theorem C50_credits_conserved (C : Cfg E) (hj : C.Joined) (hcap : ∀ e p, C.init e p < 2147483648) (st : Net E) (h : Reach C st)
    (e : E) (p v : Nat) (hp : p < C.ports e) (hv : v < C.nvc e) (e' : E) (i : Nat) (hl : C.out e p = some (e', i)) :
    (st.slots e (p * C.nvc e + v)).cred + inFlight st.wire e' i v + C.buffered st e' i v + returning st.wire e p v =
      (C.init e p / C.nvc e : Nat) ∧ 0 ≤ (st.slots e (p * C.nvc e + v)).cred :=
  ⟨(inv hj hcap h).bal e p v e' i hl hp hv, (inv hj hcap h).nonneg e _⟩

/-- C50: what has come in on one input port and still waits never exceeds the credits the port
was given, over all channels together. -/
theorem C50_receiver_never_overflows (C : Cfg E) (hj : C.Joined) (hcap : ∀ e p, C.init e p < 2147483648) (st : Net E) (h : Reach C st)
    (e : E) (p : Nat) (hp : p < C.ports e) (e' : E) (i : Nat) (hl : C.out e p = some (e', i)) :
    ((List.range (C.nvc e)).map fun v => inFlight st.wire e' i v + C.buffered st e' i v).sum ≤ C.init e p := by
  have key : ∀ n, n ≤ C.nvc e → ((List.range n).map fun v => inFlight st.wire e' i v + C.buffered st e' i v).sum ≤ n * (C.init e p / C.nvc e) := by
    intro n
    induction n with
    | zero => intro _; simp
    | succ n ih =>
      intro hn
      have h1 := ih (by omega)
      have h2 := C50_credits_conserved C hj hcap st h e p n hp (by omega) e' i hl
      rw [List.range_succ, List.map_append, List.sum_append_nat, Nat.succ_mul]
      simp only [List.map_cons, List.map_nil, List.sum_cons, List.sum_nil, Nat.add_zero]
      generalize C.init e p / C.nvc e = z at *
      omega
  exact Nat.le_trans (key (C.nvc e) (Nat.le_refl _)) (Nat.mul_div_le _ _)

/-- C50: no credit ever arrives that would raise the credits above the initial amount (the
"initial credits exceeded" check never fires). -/
theorem C50_credits_never_exceed (C : Cfg E) (hj : C.Joined) (hcap : ∀ e p, C.init e p < 2147483648) (st : Net E) (h : Reach C st)
    (e : E) (p v n : Nat) (hm : Msg.credit e p v n ∈ st.wire) :
    v < C.nvc e ∧ p < C.ports e ∧ (st.slots e (p * C.nvc e + v)).cred + n ≤ (C.init e p / C.nvc e : Nat) := by
  have hi := inv hj hcap h
  obtain ⟨hv, hp, e', i, hl⟩ := hi.cr e p v n hm
  refine ⟨hv, hp, ?_⟩
  have := cred_le hj hi hp hv hl
  have hle : n ≤ returning st.wire e p v := by
    obtain ⟨a, b, hw⟩ := List.append_of_mem hm
    rw [hw, show a ++ Msg.credit e p v n :: b = a ++ ([Msg.credit e p v n] ++ b) from rfl, returning_append, returning_append, returning_credit]
    simp only [and_self, if_true]
    omega
  omega

end SST.Pisces
