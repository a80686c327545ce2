import Verif.Mpi.Quiesce
/-
C149: how long a process and its partners are busy with rendezvous transfers, and the QoS of catching up.
-/
set_option autoImplicit false
namespace SST.Mpi.Quiesce

/-! ### Specification -/

/-- The time at which an event begins a transfer, if it does. -/
def begins : Ev → Option Int
  | .send now => some now
  | .header now _ true => some now
  | .header _ _ false => none
  | .post now => some now
  | .payload .. => none
  | .ack .. => none

/-- Whether an event ends a transfer. -/
def ends : Ev → Bool
  | .payload .. => true
  | .ack .. => true
  | _ => false

/-- The times that arriving messages carry. -/
def told : Ev → List Int
  | .header _ mq _ => [mq]
  | .payload _ mq => [mq]
  | .ack _ mq => [mq]
  | _ => []

/-- The transfers of a history that are not finished. -/
def pending (h : List Ev) : Int := (h.countP (fun e => (begins e).isSome) : Int) - h.countP ends

/-- No history of a process ends more transfers than it began. -/
def Valid (h : List Ev) : Prop := ∀ h1 h2, h = h1 ++ h2 → 0 ≤ pending h1

/-- A process is busy since `t`: there a transfer began while there was none, and there was always one since.
The messages that arrived since carried the times `ts`. -/
inductive Since : List Ev → Int → List Int → Prop where
  | begin (h : List Ev) (e : Ev) (t : Int) : pending h = 0 → begins e = some t → Since (h ++ [e]) t []
  | more (h : List Ev) (e : Ev) (t : Int) (ts : List Int) : Since h t ts → 0 < pending h → 0 < pending (h ++ [e]) → Since (h ++ [e]) t (ts ++ told e)

/-! ### Proofs -/

theorem snoc_ind {α : Type} {P : List α → Prop} (nil : P []) (snoc : ∀ h e, P h → P (h ++ [e])) (l : List α) : P l := by
  have : ∀ r : List α, P r.reverse := by
    intro r
    induction r with
    | nil => exact nil
    | cons e r ih => rw [List.reverse_cons]; exact snoc _ _ ih
  have h := this l.reverse
  rwa [List.reverse_reverse] at h

theorem run_snoc (c : Conf) (s : S) (h : List Ev) (e : Ev) : run c s (h ++ [e]) = (step c (run c s h) e).1 := by
  simp [run, List.foldl_append]

theorem pending_snoc (h : List Ev) (e : Ev) : pending (h ++ [e]) = pending h + (if (begins e).isSome then 1 else 0) - (if ends e then 1 else 0) := by
  unfold pending
  rw [List.countP_append, List.countP_append, List.countP_singleton, List.countP_singleton]
  cases hb : (begins e).isSome <;> cases he : ends e <;> simp <;> omega

theorem step_out (c : Conf) (s : S) (e : Ev) : (step c s e).1.out = s.out + (if (begins e).isSome then 1 else 0) - (if ends e then 1 else 0) := by
  have hn : ∀ s now, (newOutstanding s now).out = s.out + 1 := by
    intro s now; unfold newOutstanding; simp only; split <;> rfl
  cases e with
  | header now mq p => cases p <;> simp [step, getData, hn, begins, ends]
  | send now => simp [step, hn, begins, ends]
  | post now => simp [step, getData, hn, begins, ends]
  | payload now mq => simp [step, finished, begins, ends]
  | ack now mq => simp [step, finished, begins, ends]

/-- C149, count: the number of transfers in progress is the number of those that began and did not end,
apart from the value before the first. -/
theorem C149_count (c : Conf) (g : Int) (h : List Ev) : (run c (init g) h).out = g + pending h := by
  induction h using snoc_ind with
  | nil => simp [run, init, pending]
  | snoc h e ih => rw [run_snoc, step_out, ih, pending_snoc]; omega

theorem begins_new (c : Conf) (s : S) (e : Ev) (t : Int) (h0 : s.out = 0) (hb : begins e = some t) :
    (step c s e).1.last = t ∧ (step c s e).1.minP = t := by
  cases e with
  | header now mq p => cases p <;> simp_all [step, getData, begins, newOutstanding]
  | send now => simp_all [step, newOutstanding, begins]
  | post now => simp_all [step, getData, newOutstanding, begins]
  | payload now mq => simp [begins] at hb
  | ack now mq => simp [begins] at hb

theorem step_busy (c : Conf) (s : S) (e : Ev) (h0 : s.out ≠ 0) :
    (step c s e).1.last = s.last ∧ (step c s e).1.minP = (told e).foldl min s.minP := by
  cases e with
  | header now mq p => cases p <;> simp_all [step, getData, newOutstanding, told]
  | send now => simp_all [step, newOutstanding, told]
  | post now => simp_all [step, getData, newOutstanding, told]
  | payload now mq => simp [step, finished, told]
  | ack now mq => simp [step, finished, told]

/-- C149, times: a process that is busy since `t` has recorded `t`, which its log of delays uses, and the least time it was told
since. -/
theorem C149_since (c : Conf) (h : List Ev) (t : Int) (ts : List Int) (hs : Since h t ts) :
    (run c (init 0) h).last = t ∧ (run c (init 0) h).minP = ts.foldl min t := by
  induction hs with
  | begin h e t h0 hb =>
    rw [run_snoc]
    exact begins_new c _ e t (by rw [C149_count, h0]; rfl) hb
  | more h e t ts _ hp _ ih =>
    rw [run_snoc]
    have := step_busy c (run c (init 0) h) e (by rw [C149_count]; omega)
    rw [this.1, this.2, ih.1, ih.2, List.foldl_append]
    exact ⟨rfl, rfl⟩

theorem foldl_min (ts : List Int) : ∀ t : Int, (ts.foldl min t ≤ t ∧ ∀ x ∈ ts, ts.foldl min t ≤ x) ∧ (ts.foldl min t = t ∨ ts.foldl min t ∈ ts) := by
  induction ts with
  | nil => intro t; simp
  | cons a ts ih =>
    intro t
    obtain ⟨⟨h1, h2⟩, h3⟩ := ih (min t a)
    rw [List.foldl_cons]
    refine ⟨⟨by omega, ?_⟩, ?_⟩
    · intro x hx
      rcases List.mem_cons.mp hx with rfl | hx
      · omega
      · exact h2 x hx
    · rcases h3 with h3 | h3
      · rw [h3]
        rcases Int.le_total t a with h | h
        · left; omega
        · right; rw [show min t a = a by omega]; simp
      · right; exact List.mem_cons_of_mem _ h3

/-- C149: whenever transfers are in progress there is a time since when the process is busy. -/
theorem C149_busy (h : List Ev) (hv : Valid h) (hp : 0 < pending h) : ∃ t ts, Since h t ts := by
  induction h using snoc_ind with
  | nil => simp [pending] at hp
  | snoc h e ih =>
    have h0 : 0 ≤ pending h := hv h [e] rfl
    by_cases hz : pending h = 0
    · have hs := pending_snoc h e
      cases hb : begins e with
      | none => rw [hb] at hs; simp only [Option.isSome_none, Bool.false_eq_true, if_false] at hs; split at hs <;> omega
      | some t => exact ⟨t, [], .begin h e t hz hb⟩
    · obtain ⟨t, ts, hs⟩ := ih (fun h1 h2 heq => hv h1 (h2 ++ [e]) (by rw [heq, List.append_assoc])) (by omega)
      exact ⟨t, ts ++ told e, .more h e t ts hs (by omega) hp⟩

/-- C149, QoS (partial: the counter starts at 0, and only what messages told since the process became busy).  A
process that has been busy since `t` and gets the data of a further receive at `now` uses the QoS for catching up
exactly if it, or one of the partners it has heard of since, was busy for longer than the cutoff. -/
theorem C149_qos_partial (c : Conf) (q : Nat) (hq : c.catchUp = some q) (hne : q ≠ c.getQos) (h : List Ev) (t : Int) (ts : List Int)
    (hs : Since h t ts) (hp : 0 < pending h) (now : Int) :
    ∃ mq k, (step c (run c (init 0) h) (.post now)).2 = some (.get mq k)
      ∧ (k = q ↔ c.cutoff < now - t ∨ ∃ x ∈ ts, c.cutoff < now - x)
      ∧ (k = q ∨ k = c.getQos) ∧ mq ≤ t ∧ (mq = t ∨ mq ∈ ts) := by
  obtain ⟨_, h2⟩ := C149_since c h t ts hs
  have ho : (run c (init 0) h).out ≠ 0 := by rw [C149_count]; omega
  refine ⟨_, _, rfl, ?_⟩
  have hm : (newOutstanding (run c (init 0) h) now).minP = ts.foldl min t := by
    unfold newOutstanding; simp only [if_neg ho]; exact h2
  obtain ⟨⟨h3, h4⟩, h5⟩ := foldl_min ts t
  rw [hm]
  simp only [qos, hq, hm]
  refine ⟨?_, ?_, h3, h5⟩
  · split
    · next hc =>
      refine ⟨fun _ => ?_, fun _ => rfl⟩
      rcases h5 with h5 | h5
      · left; omega
      · right; exact ⟨_, h5, hc⟩
    · next hc =>
      refine ⟨fun hk => absurd hk.symm hne, ?_⟩
      rintro (hk | ⟨x, hx, hk⟩)
      · omega
      · have := h4 x hx; omega
  · split
    · exact Or.inl rfl
    · exact Or.inr rfl

/-- C149, without the parameter: every transfer uses the usual QoS. -/
theorem C149_off (c : Conf) (hq : c.catchUp = none) (s : S) (e : Ev) (mq : Int) (k : Nat) (h : (step c s e).2 = some (.get mq k)) : k = c.getQos := by
  cases e with
  | header now m p => cases p <;> simp [step, getData, qos, hq] at h; exact h.2.symm
  | send now => simp [step] at h
  | post now => simp [step, getData, qos, hq] at h; exact h.2.symm
  | payload now mq => simp [step] at h
  | ack now mq => simp [step] at h

/-- A configuration. -/
def conf : Conf := ⟨0, some 1, 400⟩

/-- A history: a send, a header of a partner that is busy since 5, and data. -/
def hist : List Ev := [.send 100, .header 120 5 true, .payload 200 5]

/-- The hypotheses are met. -/
example : Since hist 100 [5, 5] ∧ 0 < pending hist ∧ conf.catchUp = some 1 ∧ (step conf (run conf (init 0) hist) (.post 450)).2 = some (.get 5 1) :=
  ⟨.more [.send 100, .header 120 5 true] _ 100 [5] (.more [.send 100] _ 100 [] (.begin [] _ 100 rfl rfl) (by decide) (by decide)) (by decide) (by decide), by decide, rfl, by decide⟩

/-- C149 refuted for the start: the constructor leaves the counter as it is in memory.  If it is positive there,
then the process counts as busy since time 0 for ever: all transfers after the cutoff catch up. -/
theorem C149_init_refuted (c : Conf) (q : Nat) (hq : c.catchUp = some q) (g : Int) (hg : 0 < g) (h : List Ev) (hv : Valid h) (now : Int) (hn : c.cutoff < now) :
    ∃ mq, (step c (run c (init g) h) (.post now)).2 = some (.get mq q) := by
  have hm : (run c (init g) h).minP ≤ 0 := by
    induction h using snoc_ind with
    | nil => exact Int.le_refl 0
    | snoc h e ih =>
      have ho : (run c (init g) h).out ≠ 0 := by
        have : 0 ≤ pending h := hv h [e] rfl
        rw [C149_count]; omega
      have := ih (fun h1 h2 heq => hv h1 (h2 ++ [e]) (by rw [heq, List.append_assoc]))
      rw [run_snoc, (step_busy c _ e ho).2]
      exact Int.le_trans (foldl_min (told e) _).1.1 this
  have ho : (run c (init g) h).out ≠ 0 := by
    have : 0 ≤ pending h := hv h [] (by simp)
    rw [C149_count]; omega
  refine ⟨(run c (init g) h).minP, ?_⟩
  simp only [step, getData, newOutstanding, if_neg ho, qos, hq]
  rw [if_pos (by omega)]

/-- The histories exist: without any transfer in progress for long, the first one catches up. -/
example : Valid [] ∧ (step conf (run conf (init 1) []) (.post 1000)).2 = some (.get 0 1) ∧ (step conf (run conf (init 0) []) (.post 1000)).2 = some (.get 1000 0) :=
  ⟨fun h1 h2 h => by rw [List.append_eq_nil_iff.mp h.symm |>.1]; decide, by decide, by decide⟩

/-- C149 refuted for partners: a process without transfers that gets a header uses the usual QoS, however long
its partner is busy. -/
theorem C149_partner_refuted (c : Conf) (hc : 0 ≤ c.cutoff) (s : S) (h0 : s.out = 0) (now mq : Int) :
    (step c s (.header now mq true)).2 = some (.get now c.getQos) := by
  simp only [step, if_true, getData, newOutstanding, h0, qos]
  split
  · rfl
  · rw [if_neg (by omega)]

/-- The partner has been busy for longer than the cutoff. -/
example : (step conf (init 0) (.header 1000 5 true)).2 = some (.get 1000 0) ∧ conf.cutoff < 1000 - 5 := by decide

/-- C149 refuted for headers: the first header of a process that had no transfers carries the time from before,
not the time since when it is busy; the first ever carries 0. -/
theorem C149_header_refuted (c : Conf) (h : List Ev) (now : Int) (h0 : pending h = 0) :
    (step c (run c (init 0) h) (.send now)).2 = some (.header (run c (init 0) h).minP)
    ∧ Since (h ++ [.send now]) now [] ∧ (h = [] → (run c (init 0) h).minP = 0) :=
  ⟨rfl, .begin h _ now h0 rfl, fun e => by rw [e]; rfl⟩

/-- So a process that is busy for one tick catches up, since its partner has just begun its first transfer. -/
theorem C149_stale_refuted : (step conf (init 0) (.send 1000)).2 = some (.header 0)
    ∧ (step conf (run conf (init 0) [.send 999]) (.header 1000 0 true)).2 = some (.get 0 1) := by decide

/-- C149 refuted for messages between the ranks of a parallel simulation: whatever time they carry, the process that
gets one while it is busy uses the QoS for catching up for all later transfers of this busy time. -/
theorem C149_parallel_refuted (c : Conf) (q : Nat) (hq : c.catchUp = some q) (h : List Ev) (t : Int) (ts : List Int) (hs : Since h t ts) (hp : 0 < pending h)
    (mq now : Int) (hmem : arrives true mq ∈ ts) (hn : c.cutoff < now) :
    ∃ m, (step c (run c (init 0) h) (.post now)).2 = some (.get m q) := by
  obtain ⟨_, h2⟩ := C149_since c h t ts hs
  have ho : (run c (init 0) h).out ≠ 0 := by rw [C149_count]; omega
  have hz := (foldl_min ts t).1.2 _ hmem
  simp only [arrives, if_true] at hz
  refine ⟨(run c (init 0) h).minP, ?_⟩
  simp only [step, getData, newOutstanding, if_neg ho, qos, hq]
  rw [if_pos (by omega)]

/-- The hypotheses are met, although all were busy for only ten ticks. -/
example : Since [.send 1000, .header 1005 (arrives true 1000) true] 1000 [arrives true 1000] ∧ arrives false 1000 = 1000 ∧ conf.cutoff < 1010 :=
  ⟨.more [.send 1000] _ 1000 [] (.begin [] _ 1000 rfl rfl) (by decide) (by decide), by decide, by decide⟩

end SST.Mpi.Quiesce
