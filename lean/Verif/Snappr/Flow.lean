import Verif.Snappr.WrrProps
/-
A network of snappr switches and NICs with flow control: C50.
-/
set_option autoImplicit false
namespace SST.Snappr

variable {E : Type} [DecidableEq E] {σ : Type}

/-- How the elements are joined. `sink`: the receiving side of a NIC; `out e o`: element and input port
behind output port `o` (`connectOutput`, snappr_switch.cc:216-233); `back e i`: element and output port
credited for input port `i` (`connectInput`, 235-247); `init e o v`: the credits of a lane. -/
structure SCfg (E : Type) where
  sink : E → Bool
  out : E → Nat → Option (E × Nat)
  back : E → Nat → Option (E × Nat)
  init : E → Nat → Nat → Nat

/-- On a link: a packet on its way to input port `i` of `e` (its lane is the one it was sent on), or
credits (`SnapprCredit`, snappr.h:192-230) on their way to output port `o` of `e`. -/
inductive SMsg (E : Type)
  | pay (e : E) (i : Nat) (p : Pkt)
  | credit (e : E) (o vl n : Nat)
deriving DecidableEq, Repr

/-- A packet inside an element: its output port, what the arbitrator sees of it, and the input port and
lane it came on (`setInport`, `saveInputVirtualLane`, snappr_switch.cc:280-281). -/
structure Held where
  port : Nat
  pkt : Pkt
  inp : Nat
  ivl : Nat
deriving DecidableEq, Repr

/-- The state of a network: the arbitrators of all ports, the packets in each element, and the links. -/
structure SNet (E σ : Type) where
  arb : E → Nat → σ
  hold : E → List Held
  wire : List (SMsg E)

/-- Replace the arbitrator of port `o` of `e`. -/
def setArb (f : E → Nat → σ) (e : E) (o : Nat) (a : σ) : E → Nat → σ := fun e' o' => if e' = e ∧ o' = o then a else f e' o'

/-- Replace the packets of `e`. -/
def setHold (f : E → List Held) (e : E) (l : List Held) : E → List Held := fun e' => if e' = e then l else f e'

/-- The credit that `send` sends back, snappr_outport.cc:199-206. -/
def SCfg.credit (C : SCfg E) (e : E) (x : Held) : List (SMsg E) :=
  match C.back e x.inp with
  | none => []
  | some (e', o) => [.credit e' o x.ivl x.pkt.bytes]

/-- One event of the simulation, at any time `c`.
`arrive`: a packet reaches a switch, which may have routed it to any output port and lane
(`SnapprSwitch::handlePayload`, snappr_switch.cc:272-300, and any router; a packet whose hand-over to the
port is delayed is still on the link here).
`eject`: a packet reaches a NIC, which credits it (`SnapprNIC::eject`, snappr_nic.cc:281-317).
`credit`: credits reach a port (`handleCredit`, snappr_outport.cc:123-133).
`inject`: a NIC hands a packet to its port (`injectPacket`); nothing is credited for it.
`send`: a port sends the packet its arbitrator gives it (`arbitrate`, `send`, snappr_outport.cc:135-222).
If two packets in a port look the same to the arbitrator, either may be the one sent. -/
inductive SNext (C : SCfg E) (A : Arb σ) (st : SNet E σ) : SNet E σ → Prop
  | arrive {a b : List (SMsg E)} {e : E} {i : Nat} {p : Pkt} (c o w : Nat) (h : st.wire = a ++ .pay e i p :: b) (hs : C.sink e = false) :
      SNext C A st ⟨setArb st.arb e o (A.insert (st.arb e o) c ⟨p.id, p.bytes, w⟩),
        setHold st.hold e (⟨o, ⟨p.id, p.bytes, w⟩, i, p.vl⟩ :: st.hold e), a ++ b⟩
  | eject {a b : List (SMsg E)} {e : E} {i : Nat} {p : Pkt} {e' : E} {o : Nat} (h : st.wire = a ++ .pay e i p :: b) (hs : C.sink e = true)
      (hb : C.back e i = some (e', o)) : SNext C A st ⟨st.arb, st.hold, a ++ b ++ [.credit e' o p.vl p.bytes]⟩
  | credit {a b : List (SMsg E)} {e : E} {o v n : Nat} (h : st.wire = a ++ .credit e o v n :: b) :
      SNext C A st ⟨setArb st.arb e o (A.addCredits (st.arb e o) v n), st.hold, a ++ b⟩
  | inject (c : Nat) (e : E) (x : Held) (hb : C.back e x.inp = none) :
      SNext C A st ⟨setArb st.arb e x.port (A.insert (st.arb e x.port) c x.pkt), setHold st.hold e (x :: st.hold e), st.wire⟩
  | send {a b : List Held} {e e' : E} {i : Nat} {x : Held} {s' : σ} (c : Nat) (hx : st.hold e = a ++ x :: b) (hne : A.empty (st.arb e x.port) = false)
      (hp : A.pop (st.arb e x.port) c = some (s', x.pkt)) (ho : C.out e x.port = some (e', i)) :
      SNext C A st ⟨setArb st.arb e x.port s', setHold st.hold e (a ++ b), st.wire ++ .pay e' i x.pkt :: C.credit e x⟩

/-- The states a network can be in. -/
inductive SReach (C : SCfg E) (A : Arb σ) (start : (Nat → Nat) → σ) : SNet E σ → Prop
  | start : SReach C A start ⟨fun e o => start (C.init e o), fun _ => [], []⟩
  | next {st st' : SNet E σ} (h : SReach C A start st) (n : SNext C A st st') : SReach C A start st'

/-- Every input port is credited to the output port that feeds it. -/
def SCfg.Joined (C : SCfg E) : Prop := ∀ e o e' i, C.out e o = some (e', i) ↔ C.back e' i = some (e, o)

/-- Bytes on the way to input port `i` of `e` on lane `v`. -/
def onWay (w : List (SMsg E)) (e : E) (i v : Nat) : Nat :=
  (w.map fun | .pay e' i' p => if e' = e ∧ i' = i ∧ p.vl = v then p.bytes else 0 | .credit .. => 0).sum

/-- Credits on the way to output port `o` of `e` for lane `v`. -/
def onWayBack (w : List (SMsg E)) (e : E) (o v : Nat) : Nat :=
  (w.map fun | .credit e' o' v' n => if e' = e ∧ o' = o ∧ v' = v then n else 0 | .pay .. => 0).sum

/-- Bytes in an element that came on input port `i` and lane `v`. -/
def heldFrom (l : List Held) (i v : Nat) : Nat := (l.map fun x => if x.inp = i ∧ x.ivl = v then x.pkt.bytes else 0).sum

/-- Credits of an arbitrator: `own s v` is the credits of lane `v` and those its ready packets have taken. -/
structure CreditLaw (A : Arb σ) (J : σ → Prop) (own : σ → Nat → Nat) : Prop where
  ins : ∀ s c p, J s → J (A.insert s c p) ∧ ∀ v, own (A.insert s c p) v = own s v
  cred : ∀ s w n, J s → J (A.addCredits s w n) ∧ ∀ v, own (A.addCredits s w n) v = own s v + if v = w then n else 0
  pop : ∀ s c s' p, J s → A.empty s = false → A.pop s c = some (s', p) → J s' ∧ ∀ v, own s' v + (if v = p.vl then p.bytes else 0) = own s v

theorem onWay_append (a b : List (SMsg E)) (e : E) (i v : Nat) : onWay (a ++ b) e i v = onWay a e i v + onWay b e i v := by
  unfold onWay; rw [List.map_append, List.sum_append_nat]

theorem onWayBack_append (a b : List (SMsg E)) (e : E) (o v : Nat) : onWayBack (a ++ b) e o v = onWayBack a e o v + onWayBack b e o v := by
  unfold onWayBack; rw [List.map_append, List.sum_append_nat]

theorem heldFrom_append (a b : List Held) (i v : Nat) : heldFrom (a ++ b) i v = heldFrom a i v + heldFrom b i v := by
  unfold heldFrom; rw [List.map_append, List.sum_append_nat]

theorem heldFrom_cons (x : Held) (b : List Held) (i v : Nat) :
    heldFrom (x :: b) i v = (if x.inp = i ∧ x.ivl = v then x.pkt.bytes else 0) + heldFrom b i v := by
  unfold heldFrom; rw [List.map_cons, List.sum_cons]

theorem onWay_pay (e' : E) (i' : Nat) (p : Pkt) (b : List (SMsg E)) (e : E) (i v : Nat) :
    onWay (.pay e' i' p :: b) e i v = (if e' = e ∧ i' = i ∧ p.vl = v then p.bytes else 0) + onWay b e i v := by
  unfold onWay; rw [List.map_cons, List.sum_cons]

theorem onWay_credit (e' : E) (o' v' n : Nat) (b : List (SMsg E)) (e : E) (i v : Nat) : onWay (.credit e' o' v' n :: b) e i v = onWay b e i v := by
  unfold onWay; rw [List.map_cons, List.sum_cons, Nat.zero_add]

theorem onWayBack_pay (e' : E) (i' : Nat) (p : Pkt) (b : List (SMsg E)) (e : E) (o v : Nat) : onWayBack (.pay e' i' p :: b) e o v = onWayBack b e o v := by
  unfold onWayBack; rw [List.map_cons, List.sum_cons, Nat.zero_add]

theorem onWayBack_credit (e' : E) (o' v' n : Nat) (b : List (SMsg E)) (e : E) (o v : Nat) :
    onWayBack (.credit e' o' v' n :: b) e o v = (if e' = e ∧ o' = o ∧ v' = v then n else 0) + onWayBack b e o v := by
  unfold onWayBack; rw [List.map_cons, List.sum_cons]

/-- The invariant: every arbitrator is in order, and each lane's credits are accounted for. -/
def SInv (C : SCfg E) (J : σ → Prop) (own : σ → Nat → Nat) (st : SNet E σ) : Prop :=
  (∀ e o, J (st.arb e o)) ∧ ∀ e o e' i v, C.out e o = some (e', i) →
    own (st.arb e o) v + onWay st.wire e' i v + heldFrom (st.hold e') i v + onWayBack st.wire e o v = C.init e o v

theorem setArb_J {J : σ → Prop} {f : E → Nat → σ} (h : ∀ e o, J (f e o)) {e : E} {o : Nat} {a : σ} (ha : J a) : ∀ e' o', J (setArb f e o a e' o') := by
  intro e' o'
  unfold setArb
  split
  · exact ha
  · exact h e' o'

theorem setArb_own {own : σ → Nat → Nat} (f : E → Nat → σ) (e : E) (o : Nat) (a : σ) (e' : E) (o' v : Nat) :
    own (setArb f e o a e' o') v = if e' = e ∧ o' = o then own a v else own (f e' o') v := by
  unfold setArb
  split <;> rfl

theorem snext_inv {C : SCfg E} (hj : C.Joined) {A : Arb σ} {J : σ → Prop} {own : σ → Nat → Nat} (L : CreditLaw A J own) {st st' : SNet E σ}
    (h : SInv C J own st) (n : SNext C A st st') : SInv C J own st' := by
  obtain ⟨hJ, hc⟩ := h
  cases n with
  | @arrive a b e i p c o w hw hs =>
    obtain ⟨l1, l2⟩ := L.ins (st.arb e o) c ⟨p.id, p.bytes, w⟩ (hJ e o)
    refine ⟨setArb_J hJ l1, ?_⟩
    intro e1 o1 e2 i2 v ho
    have := hc e1 o1 e2 i2 v ho
    rw [hw] at this
    rw [onWay_append, onWay_pay, onWayBack_append, onWayBack_pay] at this
    simp only
    rw [setArb_own (own := own), l2, onWay_append, onWayBack_append]
    have hown : (if e1 = e ∧ o1 = o then own (st.arb e o) v else own (st.arb e1 o1) v) = own (st.arb e1 o1) v := by
      split
      · rename_i hh; rw [hh.1, hh.2]
      · rfl
    rw [hown]
    unfold setHold
    by_cases he : e2 = e
    · subst he
      rw [if_pos rfl, heldFrom_cons]
      simp only
      by_cases hi : i = i2 ∧ p.vl = v
      · rw [if_pos hi]; rw [if_pos ⟨rfl, hi⟩] at this; omega
      · rw [if_neg hi]; rw [if_neg (fun hh => hi hh.2)] at this; omega
    · rw [if_neg he]
      rw [if_neg (fun hh => he hh.1.symm)] at this
      omega
  | @eject a b e i p e' o hw hs hb =>
    refine ⟨hJ, ?_⟩
    intro e1 o1 e2 i2 v ho
    have := hc e1 o1 e2 i2 v ho
    rw [hw] at this
    rw [onWay_append, onWay_pay, onWayBack_append, onWayBack_pay] at this
    simp only
    rw [onWay_append, onWay_append, onWay_credit, onWayBack_append, onWayBack_append, onWayBack_credit]
    have h0 : onWay ([] : List (SMsg E)) e2 i2 v = 0 := rfl
    have h1 : onWayBack ([] : List (SMsg E)) e1 o1 v = 0 := rfl
    rw [h0, h1]
    have hiff : (e = e2 ∧ i = i2 ∧ p.vl = v) ↔ (e' = e1 ∧ o = o1 ∧ p.vl = v) := by
      have hf := (hj e' o e i).mpr hb
      constructor
      · rintro ⟨rfl, rfl, h3⟩
        have := (hj e1 o1 e i).mp ho
        rw [hb] at this
        cases this
        exact ⟨rfl, rfl, h3⟩
      · rintro ⟨rfl, rfl, h3⟩
        rw [hf] at ho
        cases ho
        exact ⟨rfl, rfl, h3⟩
    by_cases hh : e = e2 ∧ i = i2 ∧ p.vl = v
    · rw [if_pos (hiff.mp hh)]; rw [if_pos hh] at this; omega
    · rw [if_neg (fun h => hh (hiff.mpr h))]; rw [if_neg hh] at this; omega
  | @credit a b e o w m hw =>
    obtain ⟨l1, l2⟩ := L.cred (st.arb e o) w m (hJ e o)
    refine ⟨setArb_J hJ l1, ?_⟩
    intro e1 o1 e2 i2 v ho
    have := hc e1 o1 e2 i2 v ho
    rw [hw] at this
    rw [onWay_append, onWay_credit, onWayBack_append, onWayBack_credit] at this
    simp only
    rw [setArb_own (own := own), l2, onWay_append, onWayBack_append]
    by_cases hh : e1 = e ∧ o1 = o
    · obtain ⟨rfl, rfl⟩ := hh
      rw [if_pos ⟨rfl, rfl⟩]
      by_cases hv : v = w
      · rw [if_pos hv]; rw [if_pos ⟨rfl, rfl, hv.symm⟩] at this; omega
      · rw [if_neg hv]; rw [if_neg (fun h => hv h.2.2.symm)] at this; omega
    · rw [if_neg hh]
      rw [if_neg (fun h => hh ⟨h.1.symm, h.2.1.symm⟩)] at this
      omega
  | inject c e x hb =>
    obtain ⟨l1, l2⟩ := L.ins (st.arb e x.port) c x.pkt (hJ e x.port)
    refine ⟨setArb_J hJ l1, ?_⟩
    intro e1 o1 e2 i2 v ho
    have := hc e1 o1 e2 i2 v ho
    simp only
    rw [setArb_own (own := own), l2]
    have hown : (if e1 = e ∧ o1 = x.port then own (st.arb e x.port) v else own (st.arb e1 o1) v) = own (st.arb e1 o1) v := by
      split
      · rename_i hh; rw [hh.1, hh.2]
      · rfl
    rw [hown]
    unfold setHold
    by_cases he : e2 = e
    · subst he
      rw [if_pos rfl, heldFrom_cons, if_neg, Nat.zero_add]
      · exact this
      · intro hh
        have := (hj e1 o1 e2 i2).mp ho
        rw [← hh.1, hb] at this
        cases this
    · rw [if_neg he]; exact this
  | @send a b e e' i x s' c hx hne hp hout =>
    obtain ⟨l1, l2⟩ := L.pop _ c s' x.pkt (hJ e x.port) hne hp
    refine ⟨setArb_J hJ l1, ?_⟩
    intro e1 o1 e2 i2 v ho
    have := hc e1 o1 e2 i2 v ho
    simp only
    rw [setArb_own (own := own), onWay_append, onWay_pay, onWayBack_append, onWayBack_pay]
    have hcw : onWay (C.credit e x) e2 i2 v = 0 := by
      unfold SCfg.credit
      split
      · rfl
      · rw [onWay_credit]; rfl
    rw [hcw]
    -- the lane the packet leaves on
    have hlane : (if e1 = e ∧ o1 = x.port then own s' v else own (st.arb e1 o1) v) + (if e' = e2 ∧ i = i2 ∧ x.pkt.vl = v then x.pkt.bytes else 0) =
        own (st.arb e1 o1) v := by
      by_cases hh : e1 = e ∧ o1 = x.port
      · obtain ⟨rfl, rfl⟩ := hh
        rw [if_pos ⟨rfl, rfl⟩]
        rw [hout] at ho
        cases ho
        have := l2 v
        by_cases hv : v = x.pkt.vl
        · rw [if_pos ⟨rfl, rfl, hv.symm⟩]; rw [if_pos hv] at this; exact this
        · rw [if_neg (fun h => hv h.2.2.symm)]; rw [if_neg hv] at this; exact this
      · rw [if_neg hh, if_neg, Nat.add_zero]
        intro h
        obtain ⟨rfl, rfl, _⟩ := h
        have h1 := (hj e x.port e' i).mp hout
        have h2 := (hj e1 o1 e' i).mp ho
        rw [h1] at h2
        cases h2
        exact hh ⟨rfl, rfl⟩
    -- the lane it came on
    have hback : heldFrom (setHold st.hold e (a ++ b) e2) i2 v + onWayBack (C.credit e x) e1 o1 v = heldFrom (st.hold e2) i2 v := by
      unfold setHold
      by_cases he : e2 = e
      · subst he
        rw [if_pos rfl, hx, heldFrom_append, heldFrom_append, heldFrom_cons]
        have hb1 := (hj e1 o1 e2 i2).mp ho
        by_cases hi : x.inp = i2
        · have hcr : C.credit e2 x = [.credit e1 o1 x.ivl x.pkt.bytes] := by
            unfold SCfg.credit
            rw [hi, hb1]
          rw [hcr, onWayBack_credit]
          have h0 : onWayBack ([] : List (SMsg E)) e1 o1 v = 0 := rfl
          rw [h0]
          by_cases hv : x.ivl = v
          · rw [if_pos (show x.inp = i2 ∧ x.ivl = v from ⟨hi, hv⟩), if_pos (show e1 = e1 ∧ o1 = o1 ∧ x.ivl = v from ⟨rfl, rfl, hv⟩)]; omega
          · rw [if_neg (show ¬ (x.inp = i2 ∧ x.ivl = v) from fun h => hv h.2), if_neg (show ¬ (e1 = e1 ∧ o1 = o1 ∧ x.ivl = v) from fun h => hv h.2.2)]; omega
        · rw [if_neg (fun h => hi h.1)]
          have : onWayBack (C.credit e2 x) e1 o1 v = 0 := by
            unfold SCfg.credit
            split
            · rfl
            · rename_i e3 o3 hbk
              rw [onWayBack_credit, if_neg]
              · rfl
              · intro h
                obtain ⟨rfl, rfl, _⟩ := h
                have := (hj e3 o3 e2 x.inp).mpr hbk
                rw [ho] at this
                cases this
                exact hi rfl
          rw [this]; omega
      · rw [if_neg he]
        have : onWayBack (C.credit e x) e1 o1 v = 0 := by
          unfold SCfg.credit
          split
          · rfl
          · rename_i e3 o3 hbk
            rw [onWayBack_credit, if_neg]
            · rfl
            · intro h
              obtain ⟨rfl, rfl, _⟩ := h
              have := (hj e3 o3 e x.inp).mpr hbk
              rw [ho] at this
              cases this
              exact he rfl
        rw [this]; omega
    omega

theorem sreach_inv {C : SCfg E} (hj : C.Joined) {A : Arb σ} {J : σ → Prop} {own : σ → Nat → Nat} (L : CreditLaw A J own)
    {start : (Nat → Nat) → σ} (h0 : ∀ c, J (start c) ∧ ∀ v, own (start c) v = c v) {st : SNet E σ} (h : SReach C A start st) : SInv C J own st := by
  induction h with
  | start =>
    refine ⟨fun e o => (h0 _).1, ?_⟩
    intro e o e' i v _
    rw [(h0 _).2]
    rfl
  | next _ n ih => exact snext_inv hj L ih n

/-! ### The two arbitrators -/

/-- A lane's credits and what its ready packets have taken. -/
def Fifo.own (s : Fifo) (v : Nat) : Nat := (s.lanes v).credits + bytesOn v s.queue

/-- Waiting packets are in their lanes. -/
def Fifo.Lanes (s : Fifo) : Prop := ∀ v, ∀ p ∈ (s.lanes v).pending, p.vl = v

theorem fifo_credit_law : CreditLaw fifo Fifo.Lanes Fifo.own where
  ins := by
    intro s c p h
    refine ⟨fifo_step_lane h (.insert c p), ?_⟩
    intro v
    have := fifo_step_credit h (.insert c p) v
    exact this
  cred := by
    intro s w n h
    refine ⟨fifo_step_lane h (.credit w n), ?_⟩
    intro v
    have := fifo_step_credit h (.credit w n) v
    have hr : returned v [AEv.credit w n] = if v = w then n else 0 := by
      by_cases hv : v = w
      · subst hv; simp [returned]
      · rw [if_neg hv]; simp [returned, Ne.symm hv]
    rw [hr] at this
    exact this
  pop := by
    intro s c s' p h he hp
    have hst : fifo.step s (.pop c) = (s', [p]) := by
      simp only [Arb.step]
      rw [if_neg (by rw [he]; simp), hp]
    have h1 := fifo_step_lane h (.pop c)
    rw [hst] at h1
    refine ⟨h1, ?_⟩
    intro v
    have := fifo_step_credit h (.pop c) v
    rw [hst] at this
    have hb : bytesOn v [p] = if v = p.vl then p.bytes else 0 := by
      by_cases hv : v = p.vl
      · subst hv; simp [bytesOn]
      · rw [if_neg hv]; simp [bytesOn, Ne.symm hv]
    rw [hb] at this
    exact this

/-- A lane's credits and what its packet up for arbitration has taken. -/
def Wrr.own (s : Wrr) (v : Nat) : Nat := (s.view v).credits + (s.view v).paid

theorem wrr_credit_law {choose : (Nat → WLane) → List Nat → Nat} (hch : Chooses choose) (lbd : Nat) : CreditLaw (wrr choose lbd) Wrr.Ok Wrr.own where
  ins := by
    intro s c p h
    refine ⟨(wrr_step hch lbd h (.insert c p) 0).1, ?_⟩
    intro v
    exact (wrr_step hch lbd h (.insert c p) v).2.2
  cred := by
    intro s w n h
    refine ⟨(wrr_step hch lbd h (.credit w n) 0).1, ?_⟩
    intro v
    have := (wrr_step hch lbd h (.credit w n) v).2.2
    have hr : returned v [AEv.credit w n] = if v = w then n else 0 := by
      by_cases hv : v = w
      · subst hv; simp [returned]
      · rw [if_neg hv]; simp [returned, Ne.symm hv]
    rw [hr] at this
    exact this
  pop := by
    intro s c s' p h he hp
    have hst : (wrr choose lbd).step s (.pop c) = (s', [p]) := by
      simp only [Arb.step]
      rw [if_neg (by rw [he]; simp), hp]
    have h1 := (wrr_step hch lbd h (.pop c) 0).1
    rw [hst] at h1
    refine ⟨h1, ?_⟩
    intro v
    have := (wrr_step hch lbd h (.pop c) v).2.2
    rw [hst] at this
    have hb : bytesOn v [p] = if v = p.vl then p.bytes else 0 := by
      by_cases hv : v = p.vl
      · subst hv; simp [bytesOn]
      · rw [if_neg hv]; simp [bytesOn, Ne.symm hv]
    rw [hb] at this
    exact this

/-- **C50** (snappr network, first come first served). On every link and lane, in every state: the sender's
credits, those its ready packets have taken, the bytes on the link, those in the receiver that came by
this link and lane, and the credits on their way back are together the buffer size. -/
theorem C50_snappr_network_fifo {C : SCfg E} (hj : C.Joined) {st : SNet E Fifo} (h : SReach C fifo fifo0 st) (e : E) (o : Nat) (e' : E) (i v : Nat)
    (ho : C.out e o = some (e', i)) :
    ((st.arb e o).lanes v).credits + bytesOn v (st.arb e o).queue + onWay st.wire e' i v + heldFrom (st.hold e') i v + onWayBack st.wire e o v = C.init e o v :=
  (sreach_inv hj fifo_credit_law (fun _ => ⟨(fun v p hp => by cases hp), fun _ => rfl⟩) h).2 e o e' i v ho

/-- **C50** (snappr network, weighted round robin). The same with the other arbitrator. -/
theorem C50_snappr_network_wrr {choose : (Nat → WLane) → List Nat → Nat} (hch : Chooses choose) (lbd : Nat) (sel : Nat → Sel) (bd : Nat → Nat)
    (prio : Nat → Int) {C : SCfg E} (hj : C.Joined) {st : SNet E Wrr} (h : SReach C (wrr choose lbd) (wrr0 sel bd prio) st)
    (e : E) (o : Nat) (e' : E) (i v : Nat) (ho : C.out e o = some (e', i)) :
    ((st.arb e o).lanes v).credits + ((st.arb e o).view v).paid + onWay st.wire e' i v + heldFrom (st.hold e') i v + onWayBack st.wire e o v = C.init e o v :=
  (sreach_inv hj (wrr_credit_law hch lbd) (fun c => ⟨wrr_ok0 sel bd prio c, fun _ => rfl⟩) h).2 e o e' i v ho

/-- **C50** (snappr): a receiver never holds more bytes of a link and lane than the buffer the sender was
told of. -/
theorem C50_snappr_never_overflows {C : SCfg E} (hj : C.Joined) {st : SNet E Fifo} (h : SReach C fifo fifo0 st) (e : E) (o : Nat) (e' : E) (i v : Nat)
    (ho : C.out e o = some (e', i)) : heldFrom (st.hold e') i v ≤ C.init e o v := by
  have := C50_snappr_network_fifo hj h e o e' i v ho
  omega

/-- Two NICs and a switch: NIC 0 sends to port 0 of switch 1, whose port 1 leads to NIC 2. -/
def demoS : SCfg Nat where
  sink e := e == 2
  out e o := if e = 0 ∧ o = 0 then some (1, 0) else if e = 1 ∧ o = 1 then some (2, 0) else none
  back e i := if e = 1 ∧ i = 0 then some (0, 0) else if e = 2 ∧ i = 0 then some (1, 1) else none
  init _ _ _ := 100

theorem demoS_joined : demoS.Joined := by
  intro e o e' i
  simp only [demoS]
  constructor
  · intro h
    split at h
    · cases h; rename_i hh; rw [if_pos ⟨rfl, rfl⟩]; rw [hh.1, hh.2]
    · split at h
      · cases h; rename_i hh; rw [if_neg (by omega), if_pos ⟨rfl, rfl⟩]; rw [hh.1, hh.2]
      · cases h
  · intro h
    split at h
    · cases h; rename_i hh; rw [if_pos ⟨rfl, rfl⟩]; rw [hh.1, hh.2]
    · split at h
      · cases h; rename_i hh; rw [if_neg (by omega), if_pos ⟨rfl, rfl⟩]; rw [hh.1, hh.2]
      · cases h

/-- A packet of 60 bytes is injected, sent and taken up by the switch, where it counts against the link. -/
example : ∃ st, SReach demoS fifo fifo0 st ∧ heldFrom (st.hold 1) 0 0 = 60 ∧ ((st.arb 0 0).lanes 0).credits = 40 := by
  refine ⟨_, .next (.next (.next .start (.inject 0 0 ⟨0, ⟨7, 60, 0⟩, 9, 0⟩ rfl))
    (.send (a := []) (b := []) (x := ⟨0, ⟨7, 60, 0⟩, 9, 0⟩) (e := 0) (e' := 1) (i := 0) 0 rfl rfl rfl rfl))
    (.arrive (a := []) (b := []) (e := 1) (i := 0) (p := ⟨7, 60, 0⟩) 5 1 3 rfl rfl), by decide, by decide⟩

end SST.Snappr
