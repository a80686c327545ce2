import Verif.Parallel.Lemmas
/-! One step, one window, one round. -/
namespace SST.Parallel
open SST.Events
variable {σ P : Type} {pr : Program σ P} {part : Nat → Nat} {N : Nat}

/-- the events handled by component `c`, in order -/
def hist (pr : Program σ P) (c : Nat) (x : Exec (WSt σ) P) : List (Event P) :=
  x.trace.filter (fun e => pr.dst e.link == c)

/-- relation between the serial execution and the workers -/
structure RX (pr : Program σ P) (part : Nat → Nat) (N lb H : Nat) (s : Exec (WSt σ) P)
    (xs : Nat → Exec (WSt σ) P) : Prop where
  rm : RM pr part N lb H s.mgr s.user.seq (fun w => (xs w).mgr)
  st : ∀ c, s.user.st c = (xs (part c)).user.st c
  sq : ∀ l, (xs (part (pr.src l))).user.seq l = s.user.seq l
  hist : ∀ c, SST.Parallel.hist pr c s = SST.Parallel.hist pr c (xs (part c))

theorem upd_mgr (xs : Nat → Exec (WSt σ) P) (v : Nat) (x : Exec (WSt σ) P) :
    (fun w => (upd xs v x w).mgr) = upd (fun w => (xs w).mgr) v x.mgr := by
  funext w; unfold upd; split <;> rfl

/-- the head of the serial queue, if before the horizon, is the head of its worker's queue -/
theorem head_worker {L lb : Nat} (net : Net pr part N L) {ms : Mgr P} {sq : Nat → Nat}
    {mw : Nat → Mgr P} (hR : RM pr part N lb (lb + L) ms sq mw) {e : Event P} {q : List (Event P)}
    (hq : ms.queue = e :: q) (hH : e.time < lb + L) :
    ∃ q', (mw (part (pr.dst e.link))).queue = e :: q' := by
  have hv := net.npart (pr.dst e.link)
  have hp := hR.perm _ hv
  have hmem : e ∈ (mw (part (pr.dst e.link))).queue := by
    have : e ∈ ms.queue.filter (dest pr part (part (pr.dst e.link))) :=
      List.mem_filter.2 ⟨by simp [hq], by simp [dest]⟩
    rcases List.mem_append.1 (hp.mem_iff.1 this) with h | h
    · exact h
    · obtain ⟨⟨u, hu, heu⟩, _⟩ := (mem_pending pr part N).1 h
      have := hR.out_ge u hu e heu
      omega
  cases hw : (mw (part (pr.dst e.link))).queue with
  | nil => rw [hw] at hmem; simp at hmem
  | cons x xs =>
    refine ⟨xs, ?_⟩
    have hsw := hR.sorted_w _ hv
    have hss := hR.sorted_s
    rw [hw] at hmem hsw
    rw [hq] at hss
    rw [Sorted, List.pairwise_cons] at hss hsw
    rcases List.mem_cons.1 hmem with h | h
    · rw [h]
    · have h1 := hsw.1 e h
      have hx : x ∈ ms.queue := by
        have : x ∈ ms.queue.filter (dest pr part (part (pr.dst e.link))) :=
          hp.mem_iff.2 (List.mem_append_left _ (by rw [hw]; exact List.mem_cons_self ..))
        exact (List.mem_filter.1 this).1
      rw [hq] at hx
      rcases List.mem_cons.1 hx with h2 | h2
      · rw [h2]
      · exact (lt_asymm h1 (hss.1 x h2)).elim

/-- popping the common head keeps the relation -/
theorem rm_pop {L lb : Nat} (net : Net pr part N L) {ms : Mgr P} {sq : Nat → Nat}
    {mw : Nat → Mgr P} (hR : RM pr part N lb (lb + L) ms sq mw) {e : Event P} {q q' : List (Event P)}
    (hq : ms.queue = e :: q) (hq' : (mw (part (pr.dst e.link))).queue = e :: q') (hH : e.time < lb + L) :
    RM pr part N lb (lb + L) { ms with now := e.time, queue := q } sq
      (upd mw (part (pr.dst e.link)) { mw (part (pr.dst e.link)) with now := e.time, queue := q' }) := by
  have hv := net.npart (pr.dst e.link)
  generalize hvv : part (pr.dst e.link) = v at *
  have hss := hR.sorted_s
  rw [hq, Sorted, List.pairwise_cons] at hss
  have hpd := fun w => pend_same pr part N (ms := mw) (v := v)
      (m := { mw v with now := e.time, queue := q' }) rfl w
  refine ⟨?_, ?_, hss.2, ?_, ?_, ?_, ?_, ?_, ?_, ?_, hR.stop_s, ?_⟩
  · intro w hw
    have := hR.perm w hw
    rw [hq] at this
    rw [hpd]
    by_cases hwv : w = v
    · subst hwv
      rw [hq'] at this
      have hd : dest pr part w e = true := by simp [dest, hvv]
      simp only [List.filter_cons, hd, if_true, List.cons_append] at this
      rw [upd_same]
      exact (List.perm_cons e).1 this
    · have hd : dest pr part w e = false := by
        simp only [dest, hvv, beq_eq_false_iff_ne]; exact fun h => hwv h.symm
      simp only [List.filter_cons, hd] at this
      rw [upd_ne mw _ hwv]
      simpa using this
  · intro u hu x hx
    by_cases huv : u = v
    · subst huv; rw [upd_same] at hx; exact hR.out_ge u hu x hx
    · rw [upd_ne mw _ huv] at hx; exact hR.out_ge u hu x hx
  · intro w hw
    by_cases hwv : w = v
    · subst hwv
      have := hR.sorted_w w hw
      rw [hq', Sorted, List.pairwise_cons] at this
      rw [upd_same]; exact this.2
    · rw [upd_ne mw _ hwv]; exact hR.sorted_w w hw
  · intro x hx; exact hR.fresh x (by rw [hq]; exact List.mem_cons_of_mem _ hx)
  · intro x hx
    have := hss.1 x hx
    rw [lt_iff] at this
    simp only; omega
  · intro w hw x hx
    by_cases hwv : w = v
    · subst hwv
      have := hR.sorted_w w hw
      rw [hq', Sorted, List.pairwise_cons] at this
      rw [upd_same] at hx ⊢
      have := this.1 x hx
      rw [lt_iff] at this
      simp only; omega
    · rw [upd_ne mw _ hwv] at hx ⊢; exact hR.nw w hw x hx
  · intro x hx; exact hR.lbq x (by rw [hq]; exact List.mem_cons_of_mem _ hx)
  · intro w hw
    by_cases hwv : w = v
    · subst hwv; rw [upd_same]; exact hH
    · rw [upd_ne mw _ hwv]; exact hR.nH w hw
  · intro w hw
    by_cases hwv : w = v
    · subst hwv; rw [upd_same]; exact ⟨(hR.ipc w hw).1, (hR.ipc w hw).2⟩
    · rw [upd_ne mw _ hwv]; exact hR.ipc w hw
  · intro w hw
    by_cases hwv : w = v
    · subst hwv; rw [upd_same]; exact hR.stop_w w hw
    · rw [upd_ne mw _ hwv]; exact hR.stop_w w hw

/-- the serial execution and the worker of the head event take the same step -/
theorem rx_step {L lb : Nat} (net : Net pr part N L) {s : Exec (WSt σ) P}
    {xs : Nat → Exec (WSt σ) P} (hX : RX pr part N lb (lb + L) s xs) {e : Event P}
    {q : List (Event P)} (hq : s.mgr.queue = e :: q) (hH : e.time < lb + L) :
    ∃ s' x', step true (handler pr serialPart 0) none s = .next s' ∧
      step true (handler pr part (part (pr.dst e.link))) (some (lb + L)) (xs (part (pr.dst e.link))) = .next x' ∧
      RX pr part N lb (lb + L) s' (upd xs (part (pr.dst e.link)) x') := by
  obtain ⟨q', hq'⟩ := head_worker net hX.rm hq hH
  have hv := net.npart (pr.dst e.link)
  have hpop := rm_pop net hX.rm hq hq' hH
  have hst := hX.st (pr.dst e.link)
  have hhist := hX.hist
  have hsq := hX.sq
  have hX' := hX
  generalize hvv : part (pr.dst e.link) = v at *
  -- common handler result
  generalize hr : pr.handle (pr.dst e.link) (s.user.st (pr.dst e.link)) e = r
  have hr' : pr.handle (pr.dst e.link) ((xs v).user.st (pr.dst e.link)) e = r := by rw [← hst, hr]
  obtain ⟨ms', mv', h1, h2, h3, h4, h5, h6, h7⟩ :=
    rm_emit net (v := v) (now := e.time) hv (hX.rm.lbq e (by simp [hq])) r.2
      (by intro o ho; rw [← hr] at ho; rw [net.handle_src _ _ _ o ho, hvv])
      hpop rfl (by rw [upd_same]) (sqv := (xs v).user.seq) (by
        intro l hl; have := hsq l; rw [hl] at this; exact this)
  rw [upd_same] at h2
  rw [upd_upd] at h5
  have ens : ¬ e.time < s.mgr.now := by
    have := hX.rm.ns e (by simp [hq]); omega
  have enw : ¬ e.time < (xs v).mgr.now := by
    have := hX.rm.nw v hv e (by simp [hq']); omega
  have enH : ¬ lb + L ≤ e.time := by omega
  obtain ⟨s', hs', hs1, hs2, hs3⟩ := (doActs_mgr (x := ⟨{ s.mgr with now := e.time, queue := q },
    (⟨upd s.user.st (pr.dst e.link) r.1, (emit pr serialPart 0 e.time s.user.seq r.2).1⟩ : WSt σ),
    s.trace ++ [e], s.calls⟩)).2 ms' h1
  obtain ⟨x', hx', hx1, hx2, hx3⟩ := (doActs_mgr (x := ⟨{ (xs v).mgr with now := e.time, queue := q' },
    (⟨upd (xs v).user.st (pr.dst e.link) r.1, (emit pr part v e.time (xs v).user.seq r.2).1⟩ : WSt σ),
    (xs v).trace ++ [e], (xs v).calls⟩)).2 mv' h2
  refine ⟨s', x', ?_, ?_, ?_⟩
  · simp only [step, hq, beyond, handler, hr, ens, decide_false, Bool.and_false, Bool.false_eq_true, if_false, hs']
  · simp only [step, hq', beyond, handler, hr', enw, enH, decide_false, Bool.and_false, Bool.false_eq_true, if_false, hx']
  · constructor
    · rw [upd_mgr, hx1, hs1, hs2]
      exact h5
    · intro c
      rw [hs2]
      by_cases hcv : part c = v
      · rw [hcv, upd_same, hx2]
        simp only
        by_cases hc : c = pr.dst e.link
        · rw [hc, upd_same, upd_same]
        · rw [upd_ne _ _ hc, upd_ne _ _ hc]
          have := hX'.st c; rw [hcv] at this; exact this
      · rw [upd_ne xs _ hcv]
        have hc : c ≠ pr.dst e.link := by rintro rfl; exact hcv hvv
        simp only
        rw [upd_ne _ _ hc]; exact hX'.st c
    · intro l
      rw [hs2]
      by_cases hl : part (pr.src l) = v
      · rw [hl, upd_same, hx2]; exact h6 l hl
      · rw [upd_ne xs _ hl]
        simp only
        rw [h7 l hl]; exact hsq l
    · intro c
      unfold SST.Parallel.hist
      rw [hs3]
      have hh := hhist c
      unfold SST.Parallel.hist at hh
      simp only [List.filter_append, hh]
      by_cases hcv : part c = v
      · rw [hcv, upd_same, hx3]
        simp only [List.filter_append]
      · rw [upd_ne xs _ hcv]
        have hc : (pr.dst e.link == c) = false := by
          rw [beq_eq_false_iff_ne]; rintro rfl; exact hcv hvv
        simp [hc]

/-- sequence of serial steps -/
inductive Steps (pr : Program σ P) : Nat → Exec (WSt σ) P → Exec (WSt σ) P → Prop
  | refl {x} : Steps pr 0 x x
  | step {n x y z} : step true (handler pr serialPart 0) none x = .next y → Steps pr n y z →
      Steps pr (n + 1) x z

theorem Steps.trans {n m : Nat} {x y z : Exec (WSt σ) P} (h1 : Steps pr n x y) (h2 : Steps pr m y z) :
    Steps pr (n + m) x z := by
  induction h1 with
  | refl => simpa using h2
  | step h _ ih => rw [Nat.add_right_comm]; exact Steps.step h (ih h2)

theorem serial_steps {n m : Nat} {x y : Exec (WSt σ) P} (h1 : Serial pr n x) (h2 : Steps pr m x y) :
    Serial pr (n + m) y := by
  induction h2 generalizing n with
  | refl => exact h1
  | step h _ ih =>
    have := ih (Serial.next h1 h)
    rwa [Nat.add_right_comm] at this

/-- all events of the serial queue are at or after the horizon -/
def Idle (H : Nat) (s : Exec (WSt σ) P) : Prop := ∀ e ∈ s.mgr.queue, H ≤ e.time

theorem halt_of_ge {S : Type} {h : Handler S P} {H : Nat} {x : Exec S P}
    (hnow : ∀ e ∈ x.mgr.queue, x.mgr.now ≤ e.time) (hge : ∀ e ∈ x.mgr.queue, H ≤ e.time) :
    step true h (some H) x = .halt := by
  unfold step
  split
  · rfl
  · rename_i e q hq
    have h1 := hge e (by simp [hq])
    have h2 := hnow e (by simp [hq])
    have h3 : ¬ e.time < x.mgr.now := by omega
    simp [beyond, h1, h3]

theorem worker_mem {lb H : Nat} {ms : Mgr P} {sq : Nat → Nat} {mw : Nat → Mgr P}
    (hR : RM pr part N lb H ms sq mw) {w : Nat} (hw : w < N) {e : Event P} (he : e ∈ (mw w).queue) :
    e ∈ ms.queue ∧ part (pr.dst e.link) = w := by
  have : e ∈ ms.queue.filter (dest pr part w) := (hR.perm w hw).mem_iff.2 (List.mem_append_left _ he)
  have := List.mem_filter.1 this
  exact ⟨this.1, by simpa [dest] using this.2⟩

theorem idle_workers {lb H : Nat} {s : Exec (WSt σ) P} {xs : Nat → Exec (WSt σ) P}
    (hX : RX pr part N lb H s xs) (hI : Idle H s) (w : Nat) (hw : w < N) :
    step true (handler pr part w) (some H) (xs w) = .halt :=
  halt_of_ge (hX.rm.nw w hw) (fun _ he => hI _ (worker_mem hX.rm hw he).1)

/-- every queue is either idle or has a head before the horizon -/
theorem idle_or_head {H : Nat} {s : Exec (WSt σ) P} (hs : Sorted s.mgr.queue) :
    Idle H s ∨ ∃ e q, s.mgr.queue = e :: q ∧ e.time < H := by
  cases hq : s.mgr.queue with
  | nil => left; intro e he; rw [hq] at he; simp at he
  | cons e q =>
    by_cases h : e.time < H
    · right; exact ⟨e, q, rfl, h⟩
    · left
      rw [hq, Sorted, List.pairwise_cons] at hs
      intro x hx
      rw [hq] at hx
      rcases List.mem_cons.1 hx with rfl | hx
      · omega
      · have := hs.1 x hx
        rw [lt_iff] at this; omega

theorem runs_halt {S : Type} {h : Handler S P} {hz : Option Nat} {n : Nat} {x y : Exec S P}
    (hh : step true h hz x = .halt) (hr : Runs true h hz n x y) : n = 0 ∧ y = x := by
  cases hr with
  | halt => exact ⟨rfl, rfl⟩
  | next h1 => rw [hh] at h1; cases h1

theorem runs_next {S : Type} {h : Handler S P} {hz : Option Nat} {n : Nat} {x y z : Exec S P}
    (hh : step true h hz x = .next y) (hr : Runs true h hz n x z) :
    ∃ k, n = k + 1 ∧ Runs true h hz k y z := by
  cases hr with
  | halt h1 => rw [hh] at h1; cases h1
  | next h1 h2 => rw [hh] at h1; cases h1; exact ⟨_, rfl, h2⟩

theorem sum_update {l : List Nat} (hl : l.Nodup) {v : Nat} (hv : v ∈ l) (f : Nat → Nat) {k : Nat}
    (hk : f v = k + 1) : ((l.map (upd f v k)).sum) + 1 = (l.map f).sum := by
  induction l with
  | nil => simp at hv
  | cons a l ih =>
    rw [List.nodup_cons] at hl
    simp only [List.map_cons, List.sum_cons]
    by_cases ha : a = v
    · subst ha
      have : l.map (upd f a k) = l.map f := by
        apply List.map_congr_left
        intro u hu
        exact upd_ne f k (fun h => hl.1 (h ▸ hu))
      rw [this, upd_same, hk]; omega
    · have hv' : v ∈ l := by
        rcases List.mem_cons.1 hv with h | h
        · exact absurd h.symm ha
        · exact h
      rw [upd_ne f k ha]
      have := ih hl.2 hv'
      omega

/-- window, parallel to serial: if every worker finishes its window, so does the serial run -/
theorem window_of_workers {L lb : Nat} (net : Net pr part N L) (tot : Nat) :
    ∀ (n : Nat → Nat) (s : Exec (WSt σ) P) (xs ys : Nat → Exec (WSt σ) P),
      ((List.range N).map n).sum = tot → RX pr part N lb (lb + L) s xs →
      (∀ w, w < N → Runs true (handler pr part w) (some (lb + L)) (n w) (xs w) (ys w)) →
      ∃ m s', Steps pr m s s' ∧ Idle (lb + L) s' ∧
        RX pr part N lb (lb + L) s' ys := by
  induction tot with
  | zero =>
    intro n s xs ys hsum hX hruns
    rcases idle_or_head (H := lb + L) hX.rm.sorted_s with hI | ⟨e, q, hq, hH⟩
    · refine ⟨0, s, Steps.refl, hI, ?_⟩
      have hy : ∀ w, w < N → ys w = xs w := fun w hw =>
        (runs_halt (idle_workers hX hI w hw) (hruns w hw)).2
      have hpend : ∀ w, pendingFor pr part N (fun w => (ys w).mgr) w = pendingFor pr part N (fun w => (xs w).mgr) w := by
        intro w
        unfold pendingFor
        have : ∀ l : List Nat, (∀ v ∈ l, v < N) → l.flatMap (fun v => ((ys v).mgr.outbox.filter (fun e => part (pr.dst e.link) == w))) = l.flatMap (fun v => ((xs v).mgr.outbox.filter (fun e => part (pr.dst e.link) == w))) := by
          intro l hl
          induction l with
          | nil => rfl
          | cons a l ih =>
            simp only [List.flatMap_cons]
            rw [ih (fun v hv => hl v (List.mem_cons_of_mem _ hv)), hy a (hl a (List.mem_cons_self ..))]
        exact this _ (fun v hv => List.mem_range.1 hv)
      constructor
      · have hR := hX.rm
        refine ⟨?_, ?_, hR.sorted_s, ?_, hR.fresh, hR.ns, ?_, hR.lbq, ?_, ?_, hR.stop_s, ?_⟩
        · intro w hw; rw [hpend, hy w hw]; exact hR.perm w hw
        · intro w hw; simp only [hy w hw]; exact hR.out_ge w hw
        · intro w hw; simp only [hy w hw]; exact hR.sorted_w w hw
        · intro w hw; simp only [hy w hw]; exact hR.nw w hw
        · intro w hw; simp only [hy w hw]; exact hR.nH w hw
        · intro w hw; simp only [hy w hw]; exact hR.ipc w hw
        · intro w hw; simp only [hy w hw]; exact hR.stop_w w hw
      · intro c; rw [hy _ (net.npart c)]; exact hX.st c
      · intro l; rw [hy _ (net.npart _)]; exact hX.sq l
      · intro c; rw [hy _ (net.npart c)]; exact hX.hist c
    · obtain ⟨s', x', h1, h2, h3⟩ := rx_step net hX hq hH
      have hv := net.npart (pr.dst e.link)
      obtain ⟨k, hk, _⟩ := runs_next h2 (hruns _ hv)
      have := sum_update List.nodup_range (List.mem_range.2 hv) n hk
      omega
  | succ tot ih =>
    intro n s xs ys hsum hX hruns
    rcases idle_or_head (H := lb + L) hX.rm.sorted_s with hI | ⟨e, q, hq, hH⟩
    · -- all runs have length 0, contradiction with the sum
      exfalso
      have h0 : ∀ w ∈ List.range N, n w = 0 := fun w hw =>
        (runs_halt (idle_workers hX hI w (List.mem_range.1 hw)) (hruns w (List.mem_range.1 hw))).1
      have : ((List.range N).map n).sum = 0 := by
        rw [List.sum_eq_zero_iff_forall_eq_nat]
        intro a ha
        obtain ⟨w, hw, rfl⟩ := List.mem_map.1 ha
        exact h0 w hw
      omega
    · obtain ⟨s', x', h1, h2, h3⟩ := rx_step net hX hq hH
      have hv := net.npart (pr.dst e.link)
      obtain ⟨k, hk, hrun⟩ := runs_next h2 (hruns _ hv)
      have hs := sum_update List.nodup_range (List.mem_range.2 hv) n hk
      obtain ⟨m, s'', g1, g2, g3⟩ := ih (upd n (part (pr.dst e.link)) k) s'
        (upd xs (part (pr.dst e.link)) x') ys (by omega) h3 (by
          intro w hw
          by_cases hwv : w = part (pr.dst e.link)
          · rw [hwv, upd_same, upd_same]; exact hrun
          · rw [upd_ne _ _ hwv, upd_ne _ _ hwv]; exact hruns w hw)
      exact ⟨m + 1, s'', Steps.step h1 g1, g2, g3⟩

/-- window, serial to parallel: if the serial run finishes, every worker finishes its window -/
theorem window_of_serial {L lb : Nat} (net : Net pr part N L) {tot : Nat} {s sEnd : Exec (WSt σ) P}
    (hsteps : Steps pr tot s sEnd) (hend : sEnd.mgr.queue = []) :
    ∀ (xs : Nat → Exec (WSt σ) P), RX pr part N lb (lb + L) s xs →
      ∃ (ys : Nat → Exec (WSt σ) P) (m k : Nat) (s' : Exec (WSt σ) P),
        (∀ w, w < N → ∃ n, Runs true (handler pr part w) (some (lb + L)) n (xs w) (ys w)) ∧
        Steps pr m s s' ∧ Steps pr k s' sEnd ∧ m + k = tot ∧ Idle (lb + L) s' ∧
        RX pr part N lb (lb + L) s' ys ∧
        ((∃ e ∈ s.mgr.queue, e.time < lb + L) → 0 < m) := by
  induction hsteps with
  | @refl x =>
    intro xs hX
    have hI : Idle (lb + L) x := by intro e he; rw [hend] at he; simp at he
    refine ⟨xs, 0, 0, x, ?_, Steps.refl, Steps.refl, rfl, hI, hX, ?_⟩
    · intro w hw; exact ⟨0, Runs.halt (idle_workers hX hI w hw)⟩
    · rintro ⟨e, he, _⟩; rw [hend] at he; simp at he
  | @step n x y z hstep hrest ih =>
    intro xs hX
    rcases idle_or_head (H := lb + L) hX.rm.sorted_s with hI | ⟨e, q, hq, hH⟩
    · refine ⟨xs, 0, n + 1, x, ?_, Steps.refl, Steps.step hstep hrest, by omega, hI, hX, ?_⟩
      · intro w hw; exact ⟨0, Runs.halt (idle_workers hX hI w hw)⟩
      · rintro ⟨e, he, hlt⟩; have := hI e he; omega
    · obtain ⟨s', x', h1, h2, h3⟩ := rx_step net hX hq hH
      rw [hstep] at h1
      cases h1
      obtain ⟨ys, m, k, s'', g1, g2, g3, g4, g5, g6, _⟩ := ih hend _ h3
      refine ⟨ys, m + 1, k, s'', ?_, Steps.step hstep g2, g3, by omega, g5, g6, fun _ => by omega⟩
      intro w hw
      obtain ⟨j, hj⟩ := g1 w hw
      by_cases hwv : w = part (pr.dst e.link)
      · subst hwv
        rw [upd_same] at hj
        exact ⟨j + 1, Runs.next h2 hj⟩
      · rw [upd_ne xs _ hwv] at hj
        exact ⟨j, hj⟩

end SST.Parallel
