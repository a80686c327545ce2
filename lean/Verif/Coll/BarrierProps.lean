import Verif.Coll.Barrier
import Verif.Coll.AllgatherProps
/-!
C91: no rank leaves a barrier before every rank has entered it, and all ranks leave once all
have entered.
-/
set_option autoImplicit false
namespace SST.Coll.Barrier
open SST.Coll SST.Coll.Allgather

variable {n : Nat}

theorem bgood (hn : 1 ≤ n) : Good (barrier n).sys Act.i (fun _ => ()) ((barrier n).sync (fun _ => ())) :=
  Rounds.good (bruck_ok n 0 hn) _

theorem reach_run {b : BState} (h : BReach n b) : Reach (barrier n).sys (fun _ => ()) b.run := by
  induction h with
  | init => exact .init
  | step _ hs ih =>
    cases hs with
    | enter => exact ih
    | run s' h _ => exact ih.step h

/-- A rank with a started action has called the barrier. -/
theorem started_entered {b : BState} (h : BReach n b) (a : Act) (ha : b.run.st a ≠ .idle) :
    b.entered a.p = true := by
  induction h with
  | init => exact absurd rfl ha
  | @step b0 b1 _ hs ih =>
    cases hs with
    | enter q hq hf =>
      show (if a.p = q then true else b0.entered a.p) = true
      split
      · rfl
      · exact ih ha
    | run s' h he =>
      by_cases hi : b0.run.st a = .idle
      · exact he a hi ha
      · exact ih hi

/-- The receive of rank `p` in round `i`. -/
def rcv (n p i : Nat) : Act := ⟨p, i, .recv, (p + 2 ^ i) % n⟩
/-- The matching send. -/
def snd (n p i : Nat) : Act := ⟨(p + 2 ^ i) % n, i, .send, p⟩

theorem rcv_mem (hn : 1 ≤ n) {p i : Nat} (hp : p < n) (hi : i < (barrier n).T) : rcv n p i ∈ (barrier n).acts := by
  refine Rounds.mem_acts.mpr ⟨hp, hi, Nat.mod_lt _ hn, ?_⟩
  simp [Rounds.has, rcv, barrier, bruck]

theorem snd_mem (hn : 1 ≤ n) {p i : Nat} (hp : p < n) (hi : i < (barrier n).T) : snd n p i ∈ (barrier n).acts := by
  refine Rounds.mem_acts.mpr ⟨Nat.mod_lt _ hn, hi, hp, ?_⟩
  have := (bruck_round (V := Unit) n i 0 hn hi).1
  simp [Rounds.has, snd, barrier, bruck, mod_shift' hp (show 2 ^ i ≤ n by omega)]

/-- When the receive of round `i` is complete, its sender has started its send. -/
theorem sent_of_rcv (hn : 1 ≤ n) {b : BState} (h : BReach n b) {p i : Nat} (hp : p < n)
    (hi : i < (barrier n).T) (hd : b.run.st (rcv n p i) = .done) : b.run.st (snd n p i) ≠ .idle := by
  intro hidle
  have inv := Inv.reach (bgood hn) (reach_run h)
  have hm := snd_mem hn hp hi
  have h1 := inv.unsent _ hm rfl hidle
  have h2 := (inv.gone _ hm rfl).mpr hd
  rw [h1] at h2
  cases h2

/-- A rank whose receives of the first `i` rounds are complete has heard, directly or through
others, from the next `2^i - 1` ranks. -/
theorem heard (hn : 1 ≤ n) {b : BState} (h : BReach n b) (i : Nat) (hi : i ≤ (barrier n).T) :
    ∀ p, p < n → b.entered p = true → (∀ j, j < i → b.run.st (rcv n p j) = .done) →
      ∀ d, d < 2 ^ i → b.entered ((p + d) % n) = true := by
  induction i with
  | zero =>
    intro p hp he _ d hd
    have : d = 0 := by simpa using hd
    rw [this, Nat.add_zero, Nat.mod_eq_of_lt hp]
    exact he
  | succ i ih =>
    intro p hp he hr d hd
    have hiT : i < (barrier n).T := by omega
    by_cases hlt : d < 2 ^ i
    · exact ih (by omega) p hp he (fun j hj => hr j (by omega)) d hlt
    · have hs := sent_of_rcv hn h hp hiT (hr i (by omega))
      have hq : (p + 2 ^ i) % n < n := Nat.mod_lt _ hn
      have he' := started_entered h _ hs
      have inv := Inv.reach (bgood hn) (reach_run h)
      have hr' : ∀ j, j < i → b.run.st (rcv n ((p + 2 ^ i) % n) j) = .done := by
        intro j hj
        exact waits_done (bgood hn) inv (snd_mem hn hp hiT)
          (Rounds.waits_seq (i - j) _ _ (snd_mem hn hp hiT) (rcv_mem hn hq (by omega)) rfl hj (Nat.le_refl _)) hs
      have := ih (by omega) _ hq he' hr' (d - 2 ^ i) (by rw [Nat.pow_succ] at hd; omega)
      rw [Nat.mod_add_mod, show p + 2 ^ i + (d - 2 ^ i) = p + d by omega] at this
      exact this

theorem rounds_cover (hn : 1 ≤ n) : n ≤ 2 ^ (barrier n).T := by
  obtain ⟨_, h2⟩ := bruckTree_spec n hn
  show n ≤ 2 ^ ((bruckTree n).1 + (if (bruckTree n).2 ≠ 0 then 1 else 0))
  rcases h2 with ⟨h, e⟩ | ⟨h, e, e'⟩
  · rw [if_neg (by simp [h]), Nat.add_zero, ← e]; exact Nat.le_refl _
  · rw [if_pos h, Nat.pow_succ]; omega

/-- C91, safety: in every reachable state, if some rank has left the barrier then every rank
has entered it. -/
theorem C91_no_early_exit (hn : 1 ≤ n) {b : BState} (h : BReach n b) (p : Nat) (hp : p < n)
    (hl : b.hasLeft n p) (q : Nat) (hq : q < n) : b.entered q = true := by
  have hr : ∀ j, j < (barrier n).T → b.run.st (rcv n p j) = .done :=
    fun j hj => hl.2 _ (rcv_mem hn hp hj) rfl
  have hc := rounds_cover hn
  have hall := heard hn h _ (Nat.le_refl _) p hp hl.1 hr
  rcases Nat.lt_or_ge q p with h1 | h1
  · have := hall (q + n - p) (by omega)
    rw [show p + (q + n - p) = q + n by omega, Nat.add_mod_right, Nat.mod_eq_of_lt hq] at this
    exact this
  · have := hall (q - p) (by omega)
    rw [show p + (q - p) = q by omega, Nat.mod_eq_of_lt hq] at this
    exact this

/-- C91, liveness: an execution cannot stop before all ranks have entered and left. -/
theorem C91_all_leave (hn : 1 ≤ n) {b : BState} (h : BReach n b) (hs : ¬ ∃ b', BStep n b b') (p : Nat)
    (hp : p < n) : b.hasLeft n p := by
  have hent : ∀ q, q < n → b.entered q = true := by
    intro q hq
    cases he : b.entered q with
    | true => rfl
    | false => exact absurd ⟨_, BStep.enter b q hq he⟩ hs
  refine ⟨hent p hp, fun a ha _ => ?_⟩
  have hf : Finished (barrier n).sys b.run := by
    refine Classical.byContradiction fun hf => hs ?_
    obtain ⟨s', hst⟩ := progress (bgood hn) (reach_run h) hf
    refine ⟨_, BStep.run b s' hst fun a hi hne => ?_⟩
    have hmem : a ∈ (barrier n).acts := by
      cases hst with
      | start a' h' _ _ =>
        by_cases e : a = a'
        · rw [e]; exact h'
        · simp [upd_ne _ _ _ _ e, hi] at hne
      | postEager => exact absurd hi hne
      | postRdvz => exact absurd hi hne
      | ack a' h' =>
        by_cases e : a = a'
        · rw [e]; exact h'
        · simp [upd_ne _ _ _ _ e, hi] at hne
      | recvEager a' r pl h' hk hr =>
        by_cases e : a = r
        · rw [e]; exact hr
        · simp [upd_ne _ _ _ _ e, hi] at hne
      | recvRdvz a' r h' hk hr =>
        by_cases e' : a = a'
        · rw [e']; exact h'
        · by_cases e : a = r
          · rw [e]; exact hr
          · simp [upd_ne _ _ _ _ e, upd_ne _ _ _ _ e', hi] at hne
      | «local» a' h' =>
        by_cases e : a = a'
        · rw [e]; exact h'
        · simp [upd_ne _ _ _ _ e, hi] at hne
    exact hent _ (Rounds.mem_acts.mp hmem).1
  exact hf a ha

/-- Ranks that have not entered yet. -/
def missing (n : Nat) (b : BState) : Nat := ((List.range n).map fun q => if b.entered q then 0 else 1).sum

/-- C91: every execution ends. -/
theorem C91_terminates (n : Nat) :
    ¬ ∃ f : Nat → BState, f 0 = BState.init ∧ ∀ k, BStep n (f k) (f (k + 1)) := by
  rintro ⟨f, _, hs⟩
  have hdec : ∀ b b', BStep n b b' → work (barrier n).sys b'.run + missing n b' < work (barrier n).sys b.run + missing n b := by
    intro b b' h
    cases h with
    | enter q hq hf =>
      refine Nat.add_lt_add_left ?_ _
      refine sum_lt ?_ q (List.mem_range.mpr hq) ?_
      · intro x _
        show (if (if x = q then true else b.entered x) = true then 0 else 1) ≤ _
        by_cases e : x = q <;> simp [e]
      · show (if (if q = q then true else b.entered q) = true then 0 else 1) < _
        simp [hf]
    | run s' h _ => exact Nat.add_lt_add_right (step_work h) _
  have : ∀ k, work (barrier n).sys (f k).run + missing n (f k) + k ≤ work (barrier n).sys (f 0).run + missing n (f 0) := by
    intro k
    induction k with
    | zero => omega
    | succ k ih => have := hdec _ _ (hs k); omega
  have := this (work (barrier n).sys (f 0).run + missing n (f 0) + 1)
  omega

/-- Some execution ends, and then everybody has left: the hypothesis of `C91_no_early_exit`
is met, for any number of ranks. -/
theorem C91_can_leave (hn : 1 ≤ n) : ∃ b, BReach n b ∧ ∀ p, p < n → b.hasLeft n p := by
  refine Classical.byContradiction fun hno => C91_terminates n ?_
  have hnext : ∀ b : {b // BReach n b}, ∃ b' : {b // BReach n b}, BStep n b.1 b'.1 := by
    intro ⟨b, hb⟩
    refine Classical.byContradiction fun hc => hno ⟨b, hb, fun p hp => C91_all_leave hn hb ?_ p hp⟩
    rintro ⟨b', hs⟩
    exact hc ⟨⟨b', hb.step hs⟩, hs⟩
  let nxt : {b // BReach n b} → {b // BReach n b} := fun b => Classical.choose (hnext b)
  let g : Nat → {b // BReach n b} := fun k => Nat.rec ⟨_, .init⟩ (fun _ b => nxt b) k
  exact ⟨fun k => (g k).1, rfl, fun k => Classical.choose_spec (hnext (g k))⟩

/-- Five ranks: three rounds, 30 actions. -/
example : (barrier 5).T = 3 ∧ (barrier 5).acts.length = 30 := by decide +kernel

end SST.Coll.Barrier
