import Verif.Parallel.Lemmas2
/-! Rounds and reachability. -/
namespace SST.Parallel
open SST.Events
variable {σ P : Type} {pr : Program σ P} {part : Nat → Nat} {N : Nat}

theorem sameKey_symm {a b : Event P} (h : SameKey a b) : SameKey b a :=
  ⟨h.1.symm, h.2.1.symm, h.2.2.symm⟩

theorem sorted_distinct {q : List (Event P)} (h : Sorted q) :
    q.Pairwise (fun a b => ¬ SameKey a b) := by
  refine h.imp ?_
  intro a b hab hk
  rw [sameKey_iff] at hk
  rw [hk.1] at hab; cases hab

theorem fill_ok {inc : List (Event P)} {m : Mgr P} (hs : Sorted m.queue)
    (hd : (m.queue ++ inc).Pairwise (fun a b => ¬ SameKey a b))
    (hn : ∀ e ∈ inc, m.now ≤ e.time) :
    ∃ m', fill true m inc = some m' ∧ m' = { m with queue := m'.queue } ∧ Sorted m'.queue ∧
      m'.queue.Perm (m.queue ++ inc) := by
  induction inc generalizing m with
  | nil => exact ⟨m, rfl, rfl, hs, by simp⟩
  | cons e es ih =>
    have hd' := hd
    rw [List.pairwise_append] at hd
    have hfresh : ∀ x ∈ m.queue, ¬ SameKey e x := fun x hx hk =>
      hd.2.2 x hx e (List.mem_cons_self ..) (sameKey_symm hk)
    have h1 : schedule true m e = some { m with queue := insert e m.queue } :=
      (schedule_true_iff hs).2 ⟨hn e (List.mem_cons_self ..), hfresh, rfl⟩
    have hp : (insert e m.queue ++ es).Perm (m.queue ++ e :: es) := by
      refine ((insert_fresh hfresh).append_right es).trans ?_
      rw [List.cons_append]
      exact List.perm_middle.symm
    obtain ⟨m', g1, g2, g3, g4⟩ := ih (m := { m with queue := insert e m.queue }) (insert_sorted hs)
      (hp.symm.pairwise hd' (fun h hk => h (sameKey_symm hk)))
      (fun x hx => hn x (List.mem_cons_of_mem _ hx))
    refine ⟨m', by simp only [fill, h1]; exact g1, g2, g3, g4.trans hp⟩

/-- state between rounds -/
structure SB (pr : Program σ P) (part : Nat → Nat) (N : Nat) (lbo : Option Nat) (s : Exec (WSt σ) P)
    (ws : Nat → Exec (WSt σ) P) : Prop where
  perm : ∀ w, w < N → (s.mgr.queue.filter (dest pr part w)).Perm
    ((ws w).mgr.queue ++ pendingFor pr part N (fun v => (ws v).mgr) w)
  sorted_s : Sorted s.mgr.queue
  sorted_w : ∀ w, w < N → Sorted (ws w).mgr.queue
  fresh : ∀ e ∈ s.mgr.queue, e.seq < s.user.seq e.link
  ns : ∀ e ∈ s.mgr.queue, s.mgr.now ≤ e.time
  lbq : ∀ e ∈ s.mgr.queue, ∃ lb, lbo = some lb ∧ lb ≤ e.time
  nlb : ∀ lb, lbo = some lb → ∀ w, w < N → (ws w).mgr.now ≤ lb
  stop_s : s.mgr.stopped = false
  stop_w : ∀ w, w < N → (ws w).mgr.stopped = false
  st : ∀ c, s.user.st c = (ws (part c)).user.st c
  sq : ∀ l, (ws (part (pr.src l))).user.seq l = s.user.seq l
  hist : ∀ c, SST.Parallel.hist pr c s = SST.Parallel.hist pr c (ws (part c))

theorem sb_pending_ge {lb : Nat} {s : Exec (WSt σ) P} {ws : Nat → Exec (WSt σ) P}
    (h : SB pr part N (some lb) s ws) {w : Nat} (hw : w < N) {e : Event P}
    (he : e ∈ (ws w).mgr.queue ++ pendingFor pr part N (fun v => (ws v).mgr) w) : lb ≤ e.time := by
  have := (List.mem_filter.1 ((h.perm w hw).mem_iff.2 he)).1
  obtain ⟨b, hb, hle⟩ := h.lbq e this
  cases hb; exact hle

/-- registration never aborts -/
theorem register_ok {lb : Nat} {s : Exec (WSt σ) P} {ws : Nat → Exec (WSt σ) P}
    (h : SB pr part N (some lb) s ws) {w : Nat} (hw : w < N) {inc : List (Event P)}
    (hinc : inc.Perm (pendingFor pr part N (fun v => (ws v).mgr) w)) :
    ∃ m, register inc (ws w) = some m ∧ m.user = (ws w).user ∧ m.trace = (ws w).trace ∧
      m.mgr = { (ws w).mgr with minIpc := none, outbox := [], queue := m.mgr.queue } ∧
      Sorted m.mgr.queue ∧ m.mgr.queue.Perm ((ws w).mgr.queue ++ inc) := by
  have hp : ((ws w).mgr.queue ++ inc).Perm (s.mgr.queue.filter (dest pr part w)) :=
    (hinc.append_left _).trans (h.perm w hw).symm
  have hd : ((ws w).mgr.queue ++ inc).Pairwise (fun a b => ¬ SameKey a b) := by
    refine hp.symm.pairwise ?_ (fun h hk => h (sameKey_symm hk))
    exact (sorted_distinct h.sorted_s).filter _
  obtain ⟨m', g1, g2, g3, g4⟩ := fill_ok (m := { (ws w).mgr with minIpc := none, outbox := [] })
    (inc := inc) (h.sorted_w w hw) hd (by
      intro e he
      have := sb_pending_ge h hw (List.mem_append_right _ (hinc.mem_iff.1 he))
      have := h.nlb lb rfl w hw
      simp only; omega)
  rw [← mgrActs_fill] at g1
  obtain ⟨y, y1, y2, y3, y4⟩ := (doActs_mgr (x := { ws w with mgr := { (ws w).mgr with minIpc := none, outbox := [] } })).2 m' g1
  refine ⟨y, y1, y3, y4, ?_, ?_, ?_⟩
  · rw [y2]; exact g2
  · rw [y2]; exact g3
  · rw [y2]; exact g4

/-- after registration the window relation holds -/
theorem rx_of_sb {L lb : Nat} (net : Net pr part N L) {s : Exec (WSt σ) P} {ws ms : Nat → Exec (WSt σ) P}
    (h : SB pr part N (some lb) s ws)
    (hm : ∀ w, w < N → ∃ inc, inc.Perm (pendingFor pr part N (fun v => (ws v).mgr) w) ∧
      register inc (ws w) = some (ms w)) :
    RX pr part N lb (lb + L) s ms := by
  have hreg : ∀ w, w < N → (ms w).user = (ws w).user ∧ (ms w).trace = (ws w).trace ∧
      (ms w).mgr = { (ws w).mgr with minIpc := none, outbox := [], queue := (ms w).mgr.queue } ∧
      Sorted (ms w).mgr.queue ∧
      (ms w).mgr.queue.Perm ((ws w).mgr.queue ++ pendingFor pr part N (fun v => (ws v).mgr) w) := by
    intro w hw
    obtain ⟨inc, hinc, hr⟩ := hm w hw
    obtain ⟨m, g1, g2, g3, g4, g5, g6⟩ := register_ok h hw hinc
    rw [hr] at g1
    cases g1
    exact ⟨g2, g3, g4, g5, g6.trans (hinc.append_left _)⟩
  have hout : ∀ w, w < N → (ms w).mgr.outbox = [] := fun w hw => by rw [(hreg w hw).2.2.1]
  have hnow : ∀ w, w < N → (ms w).mgr.now = (ws w).mgr.now := fun w hw => by rw [(hreg w hw).2.2.1]
  have hpend : ∀ w, pendingFor pr part N (fun v => (ms v).mgr) w = [] := by
    intro w
    unfold pendingFor
    rw [List.flatMap_eq_nil_iff]
    intro v hv
    simp only [hout v (List.mem_range.1 hv), List.filter_nil]
  have hL := net.pos
  constructor
  · refine ⟨?_, ?_, h.sorted_s, ?_, h.fresh, h.ns, ?_, ?_, ?_, ?_, h.stop_s, ?_⟩
    · intro w hw
      rw [hpend, List.append_nil]
      exact (h.perm w hw).trans (hreg w hw).2.2.2.2.symm
    · intro w hw e he; simp only [hout w hw] at he; simp at he
    · intro w hw; exact (hreg w hw).2.2.2.1
    · intro w hw e he
      have := sb_pending_ge h hw ((hreg w hw).2.2.2.2.mem_iff.1 he)
      have := h.nlb lb rfl w hw
      simp only [hnow w hw]; omega
    · intro e he; obtain ⟨b, hb, hle⟩ := h.lbq e he; cases hb; exact hle
    · intro w hw
      have := h.nlb lb rfl w hw
      simp only [hnow w hw]; omega
    · intro w hw
      constructor
      · intro _; exact hout w hw
      · intro t ht
        rw [(hreg w hw).2.2.1] at ht
        cases ht
    · intro w hw; rw [(hreg w hw).2.2.1]; exact h.stop_w w hw
  · intro c; rw [(hreg _ (net.npart c)).1]; exact h.st c
  · intro l; rw [(hreg _ (net.npart _)).1]; exact h.sq l
  · intro c
    have := h.hist c
    unfold SST.Parallel.hist at this ⊢
    rw [(hreg _ (net.npart c)).2.1]; exact this

/-! ### the vote -/

theorem vote_none {x : Exec (WSt σ) P} (hi : IpcOk x.mgr) (h : vote x = none) :
    x.mgr.queue = [] ∧ x.mgr.outbox = [] := by
  unfold vote at h
  split at h
  · rename_i hq; exact ⟨hq, hi.none h⟩
  · cases hm : x.mgr.minIpc <;> rw [hm] at h <;> simp [minTime] at h

theorem vote_some {x : Exec (WSt σ) P} (hs : Sorted x.mgr.queue) (hi : IpcOk x.mgr) {t : Nat}
    (h : vote x = some t) :
    (∃ e, (e ∈ x.mgr.queue ∨ e ∈ x.mgr.outbox) ∧ e.time = t) ∧
    (∀ e, (e ∈ x.mgr.queue ∨ e ∈ x.mgr.outbox) → t ≤ e.time) := by
  unfold vote at h
  split at h
  · rename_i hq
    obtain ⟨⟨e, he, ht⟩, h2⟩ := hi.some t h
    refine ⟨⟨e, Or.inr he, ht⟩, ?_⟩
    rintro e' (h' | h')
    · rw [hq] at h'; simp at h'
    · exact h2 e' h'
  · rename_i e0 q hq
    rw [hq, Sorted, List.pairwise_cons] at hs
    have hq0 : ∀ e' ∈ x.mgr.queue, e0.time ≤ e'.time := by
      intro e' he'
      rw [hq] at he'
      rcases List.mem_cons.1 he' with rfl | he'
      · omega
      · have := hs.1 e' he'; rw [lt_iff] at this; omega
    cases hm : x.mgr.minIpc with
    | none =>
      rw [hm] at h
      simp only [minTime] at h
      cases h
      refine ⟨⟨e0, Or.inl (by simp [hq]), rfl⟩, ?_⟩
      rintro e' (h' | h')
      · exact hq0 e' h'
      · rw [hi.none hm] at h'; simp at h'
    | some t0 =>
      rw [hm] at h
      simp only [minTime] at h
      cases h
      obtain ⟨⟨e1, he1, ht1⟩, h2⟩ := hi.some t0 hm
      constructor
      · by_cases hle : t0 ≤ e0.time
        · exact ⟨e1, Or.inr he1, by omega⟩
        · exact ⟨e0, Or.inl (by simp [hq]), by omega⟩
      · rintro e' (h' | h')
        · have := hq0 e' h'; omega
        · have := h2 e' h'; omega

theorem foldr_min {l : List Nat} {f : Nat → Option Nat} :
    (l.foldr (fun w t => minTime (f w) t) none = none → ∀ w ∈ l, f w = none) ∧
    (∀ t, l.foldr (fun w t => minTime (f w) t) none = some t →
      (∃ w ∈ l, f w = some t) ∧ ∀ w ∈ l, ∀ t', f w = some t' → t ≤ t') := by
  induction l with
  | nil => simp
  | cons a l ih =>
    simp only [List.foldr_cons]
    cases hf : f a with
    | none =>
      simp only [minTime]
      constructor
      · intro h w hw
        rcases List.mem_cons.1 hw with rfl | hw
        · exact hf
        · exact ih.1 h w hw
      · intro t h
        obtain ⟨⟨w, hw, hw2⟩, h2⟩ := ih.2 t h
        refine ⟨⟨w, List.mem_cons_of_mem _ hw, hw2⟩, ?_⟩
        intro u hu t' ht'
        rcases List.mem_cons.1 hu with rfl | hu
        · rw [hf] at ht'; cases ht'
        · exact h2 u hu t' ht'
    | some b =>
      cases hr : l.foldr (fun w t => minTime (f w) t) none with
      | none =>
        simp only [minTime]
        constructor
        · intro h; cases h
        · intro t h
          cases h
          refine ⟨⟨a, List.mem_cons_self .., hf⟩, ?_⟩
          intro u hu t' ht'
          rcases List.mem_cons.1 hu with rfl | hu
          · rw [hf] at ht'; cases ht'; omega
          · rw [ih.1 hr u hu] at ht'; cases ht'
      | some c =>
        obtain ⟨⟨w, hw, hw2⟩, h2⟩ := ih.2 c hr
        simp only [minTime]
        constructor
        · intro h; cases h
        · intro t h
          cases h
          constructor
          · by_cases hbc : b ≤ c
            · exact ⟨a, List.mem_cons_self .., by rw [hf]; congr 1; omega⟩
            · exact ⟨w, List.mem_cons_of_mem _ hw, by rw [hw2]; congr 1; omega⟩
          · intro u hu t' ht'
            rcases List.mem_cons.1 hu with rfl | hu
            · rw [hf] at ht'; cases ht'; omega
            · have := h2 u hu t' ht'; omega

/-- after a window, the next between-round state; the new bound is attained -/
theorem sb_of_rx {L lb : Nat} (net : Net pr part N L) {s : Exec (WSt σ) P} {ys : Nat → Exec (WSt σ) P}
    (hX : RX pr part N lb (lb + L) s ys) (hI : Idle (lb + L) s) :
    SB pr part N (nextBound N ys) s ys ∧
    (∀ t, nextBound N ys = some t → lb + L ≤ t ∧ ∃ e ∈ s.mgr.queue, e.time = t) ∧
    (nextBound N ys = none → s.mgr.queue = []) := by
  have hR := hX.rm
  obtain ⟨hn, hs⟩ := foldr_min (l := List.range N) (f := fun w => vote (ys w))
  -- an event of a worker's queue or outbox is in the serial queue
  have hin : ∀ w, w < N → ∀ e, (e ∈ (ys w).mgr.queue ∨ e ∈ (ys w).mgr.outbox) → e ∈ s.mgr.queue := by
    intro w hw e he
    rcases he with he | he
    · exact (worker_mem hR hw he).1
    · have hd := net.npart (pr.dst e.link)
      have : e ∈ pendingFor pr part N (fun v => (ys v).mgr) (part (pr.dst e.link)) :=
        (mem_pending pr part N).2 ⟨⟨w, hw, he⟩, rfl⟩
      exact (List.mem_filter.1 ((hR.perm _ hd).mem_iff.2 (List.mem_append_right _ this))).1
  have hout : ∀ e ∈ s.mgr.queue, ∃ w, w < N ∧ (e ∈ (ys w).mgr.queue ∨ e ∈ (ys w).mgr.outbox) := by
    intro e he
    have hd := net.npart (pr.dst e.link)
    have : e ∈ s.mgr.queue.filter (dest pr part (part (pr.dst e.link))) :=
      List.mem_filter.2 ⟨he, by simp [dest]⟩
    rcases List.mem_append.1 ((hR.perm _ hd).mem_iff.1 this) with h | h
    · exact ⟨_, hd, Or.inl h⟩
    · obtain ⟨⟨v, hv, h1⟩, _⟩ := (mem_pending pr part N).1 h
      exact ⟨v, hv, Or.inr h1⟩
  have hnone : nextBound N ys = none → s.mgr.queue = [] := by
    intro h
    have hv := hn h
    rw [List.eq_nil_iff_forall_not_mem]
    intro e he
    obtain ⟨w, hw, h1⟩ := hout e he
    have := vote_none (hR.ipc w hw) (hv w (List.mem_range.2 hw))
    rw [this.1, this.2] at h1
    simp at h1
  have hsome : ∀ t, nextBound N ys = some t → lb + L ≤ t ∧ ∃ e ∈ s.mgr.queue, e.time = t := by
    intro t ht
    obtain ⟨⟨w, hw, hvw⟩, _⟩ := hs t ht
    have hw' := List.mem_range.1 hw
    obtain ⟨⟨e, he, het⟩, _⟩ := vote_some (hR.sorted_w w hw') (hR.ipc w hw') hvw
    have hes := hin w hw' e he
    refine ⟨?_, e, hes, het⟩
    have := hI e hes; omega
  refine ⟨?_, hsome, hnone⟩
  refine ⟨hR.perm, hR.sorted_s, hR.sorted_w, hR.fresh, hR.ns, ?_, ?_, hR.stop_s, hR.stop_w, hX.st, hX.sq, hX.hist⟩
  · intro e he
    obtain ⟨w, hw, h1⟩ := hout e he
    cases hb : nextBound N ys with
    | none => rw [hnone hb] at he; simp at he
    | some t =>
      refine ⟨t, rfl, ?_⟩
      obtain ⟨_, h2⟩ := hs t hb
      have hw' := List.mem_range.2 hw
      cases hvw : vote (ys w) with
      | none =>
        have := vote_none (hR.ipc w hw) hvw
        rw [this.1, this.2] at h1; simp at h1
      | some t' =>
        have h3 := h2 w hw' t' hvw
        have h4 := (vote_some (hR.sorted_w w hw) (hR.ipc w hw) hvw).2 e h1
        omega
  · intro t ht w hw
    have h1 := hR.nH w hw
    have h2 := (hsome t ht).1
    omega

/-! ### setup -/

theorem emit_append {part : Nat → Nat} {w now : Nat} (as bs : List (Send P)) (seq : Nat → Nat) :
    emit pr part w now seq (as ++ bs) =
      ((emit pr part w now (emit pr part w now seq as).1 bs).1,
       (emit pr part w now seq as).2 ++ (emit pr part w now (emit pr part w now seq as).1 bs).2) := by
  induction as generalizing seq with
  | nil => simp [emit]
  | cons a as ih => simp only [List.cons_append, emit, ih]

theorem setup_ok {L : Nat} (net : Net pr part N L) (cs : List Nat) :
    ∀ {ms : Mgr P} {sq : Nat → Nat} {sqw : Nat → Nat → Nat} {mw : Nat → Mgr P}
      (_hR : RM pr part N 0 (0 + L) ms sq mw) (_hns : ms.now = 0) (_hnw : ∀ w, w < N → (mw w).now = 0)
      (_hsq : ∀ l, sqw (part (pr.src l)) l = sq l),
    ∃ ms' mw', 
      mgrActs ms (emit pr serialPart 0 0 sq (cs.flatMap pr.setup)).2 = some ms' ∧
      (∀ w, w < N → mgrActs (mw w) (emit pr part w 0 (sqw w) ((cs.filter (fun c => part c == w)).flatMap pr.setup)).2 = some (mw' w)) ∧
      ms'.now = 0 ∧ (∀ w, w < N → (mw' w).now = 0) ∧
      RM pr part N 0 (0 + L) ms' (emit pr serialPart 0 0 sq (cs.flatMap pr.setup)).1 mw' ∧
      (∀ l, (emit pr part (part (pr.src l)) 0 (sqw (part (pr.src l)))
          ((cs.filter (fun c => part c == part (pr.src l))).flatMap pr.setup)).1 l =
        (emit pr serialPart 0 0 sq (cs.flatMap pr.setup)).1 l) := by
  induction cs with
  | nil =>
    intro ms sq sqw mw hR hns hnw hsq
    exact ⟨ms, mw, rfl, fun _ _ => rfl, hns, hnw, hR, hsq⟩
  | cons c cs ih =>
    intro ms sq sqw mw hR hns hnw hsq
    have hv := net.npart c
    obtain ⟨ms1, mv1, h1, h2, h3, h4, h5, h6, h7⟩ :=
      rm_emit net (v := part c) (now := 0) hv (Nat.le_refl 0) (pr.setup c)
        (by intro o ho; rw [net.setup_src c o ho]) hR hns (hnw _ hv) (sqv := sqw (part c))
        (by intro l hl; have := hsq l; rw [hl] at this; exact this)
    obtain ⟨ms2, mw2, g1, g2, g3, g4, g5, g6⟩ :=
      ih (sqw := upd sqw (part c) (emit pr part (part c) 0 (sqw (part c)) (pr.setup c)).1) h5 h3
        (by
          intro w hw
          by_cases hwv : w = part c
          · rw [hwv, upd_same]; exact h4
          · rw [upd_ne _ _ hwv]; exact hnw w hw)
        (by
          intro l
          by_cases hl : part (pr.src l) = part c
          · rw [hl, upd_same]; exact h6 l hl
          · rw [upd_ne _ _ hl, h7 l hl]; exact hsq l)
    refine ⟨ms2, mw2, ?_, ?_, g3, g4, ?_, ?_⟩
    · simp only [List.flatMap_cons, emit_append, mgrActs_append, h1, Option.bind_some]
      exact g1
    · intro w hw
      have := g2 w hw
      by_cases hwv : w = part c
      · subst hwv
        simp only [upd_same] at this
        simp only [List.filter_cons, beq_self_eq_true, if_true, List.flatMap_cons, emit_append,
          mgrActs_append, h2, Option.bind_some]
        exact this
      · have hb : (part c == w) = false := by rw [beq_eq_false_iff_ne]; exact fun h => hwv h.symm
        rw [upd_ne _ _ hwv, upd_ne _ _ hwv] at this
        simp only [List.filter_cons, hb]
        exact this
    · simp only [List.flatMap_cons, emit_append]
      exact g5
    · intro l
      have := g6 l
      simp only [List.flatMap_cons, emit_append]
      rw [← this]
      by_cases hl : part (pr.src l) = part c
      · have hb : (part c == part (pr.src l)) = true := by simp [hl]
        simp only [List.filter_cons, hb, if_true, List.flatMap_cons, emit_append]
        rw [hl, upd_same]
      · have hb : (part c == part (pr.src l)) = false := by
          rw [beq_eq_false_iff_ne]; exact fun h => hl h.symm
        simp only [List.filter_cons, hb]
        rw [upd_ne _ _ hl]
        simp

theorem setup_sb {L : Nat} (net : Net pr part N L) :
    ∃ s, setupWorker pr serialPart 0 = some s ∧
      (∀ w, w < N → ∃ x, setupWorker pr part w = some x) ∧
      ∀ ws, (∀ w, w < N → setupWorker pr part w = some (ws w)) → SB pr part N (some 0) s ws := by
  have h0 : RM pr part N 0 (0 + L) (Mgr.init : Mgr P) (fun _ => 0) (fun _ => Mgr.init) := by
    have hp : ∀ w, pendingFor pr part N (fun _ => (Mgr.init : Mgr P)) w = [] := by
      intro w; unfold pendingFor; rw [List.flatMap_eq_nil_iff]; intro v _; simp [Mgr.init]
    have := net.pos
    refine ⟨?_, ?_, ?_, ?_, ?_, ?_, ?_, ?_, ?_, ?_, rfl, ?_⟩
    · intro w _; rw [hp]; simp [Mgr.init]
    all_goals first
      | (intros; simp_all [Mgr.init, Sorted]; done)
      | simp [Mgr.init]
    · intro _ _; constructor <;> simp
  obtain ⟨ms, mw, h1, h2, h3, h4, h5, h6⟩ := setup_ok net (List.range pr.ncomp) (sqw := fun _ _ => 0) h0 rfl
    (fun _ _ => rfl) (fun _ => rfl)
  have hser : ((List.range pr.ncomp).filter (fun c => serialPart c == 0)) = List.range pr.ncomp := by
    simp [serialPart]
  obtain ⟨s, s1, s2, s3, s4⟩ := (doActs_mgr (x := (start (⟨pr.init, (emit pr serialPart 0 0 (fun _ => 0)
    ((List.range pr.ncomp).flatMap pr.setup)).1⟩ : WSt σ) : Exec (WSt σ) P))).2 ms h1
  have hw : ∀ w, w < N → ∃ x, setupWorker pr part w = some x ∧ x.mgr = mw w ∧
      x.user = ⟨pr.init, (emit pr part w 0 (fun _ => 0) (((List.range pr.ncomp).filter (fun c => part c == w)).flatMap pr.setup)).1⟩ ∧
      x.trace = [] := by
    intro w hw
    obtain ⟨x, x1, x2, x3, x4⟩ := (doActs_mgr (x := (start (⟨pr.init, (emit pr part w 0 (fun _ => 0)
      (((List.range pr.ncomp).filter (fun c => part c == w)).flatMap pr.setup)).1⟩ : WSt σ) : Exec (WSt σ) P))).2 _ (h2 w hw)
    exact ⟨x, x1, x2, x3, x4⟩
  refine ⟨s, ?_, ?_, ?_⟩
  · simp only [setupWorker, hser]; exact s1
  · intro w hw'; obtain ⟨x, hx, _⟩ := hw w hw'; exact ⟨x, hx⟩
  · intro ws hws
    have hwm : ∀ w, w < N → (ws w).mgr = mw w ∧
      (ws w).user = ⟨pr.init, (emit pr part w 0 (fun _ => 0) (((List.range pr.ncomp).filter (fun c => part c == w)).flatMap pr.setup)).1⟩ ∧
      (ws w).trace = [] := by
      intro w hw'
      obtain ⟨x, hx, hx2⟩ := hw w hw'
      rw [hws w hw'] at hx
      cases hx
      exact hx2
    have hpend : ∀ w, pendingFor pr part N (fun v => (ws v).mgr) w = pendingFor pr part N mw w := by
      intro w
      unfold pendingFor
      have : ∀ l : List Nat, (∀ v ∈ l, v < N) → l.flatMap (fun v => ((ws v).mgr.outbox.filter (fun e => part (pr.dst e.link) == w))) = l.flatMap (fun v => ((mw v).outbox.filter (fun e => part (pr.dst e.link) == w))) := by
        intro l hl
        induction l with
        | nil => rfl
        | cons a l ih =>
          simp only [List.flatMap_cons]
          rw [ih (fun v hv => hl v (List.mem_cons_of_mem _ hv)), (hwm a (hl a (List.mem_cons_self ..))).1]
      exact this _ (fun v hv => List.mem_range.1 hv)
    refine ⟨?_, ?_, ?_, ?_, ?_, ?_, ?_, ?_, ?_, ?_, ?_, ?_⟩
    · intro w hw'; rw [hpend, (hwm w hw').1, s2]; exact h5.perm w hw'
    · rw [s2]; exact h5.sorted_s
    · intro w hw'; rw [(hwm w hw').1]; exact h5.sorted_w w hw'
    · rw [s2, s3]; exact h5.fresh
    · rw [s2]; exact h5.ns
    · intro e _; exact ⟨0, rfl, Nat.zero_le _⟩
    · intro lb hlb w hw'
      cases hlb
      rw [(hwm w hw').1, h4 w hw']; exact Nat.le_refl _
    · rw [s2]; exact h5.stop_s
    · intro w hw'; rw [(hwm w hw').1]; exact h5.stop_w w hw'
    · intro c; rw [s3, (hwm _ (net.npart c)).2.1]; rfl
    · intro l; rw [s3, (hwm _ (net.npart _)).2.1]; exact h6 l
    · intro c
      unfold SST.Parallel.hist
      rw [s4, (hwm _ (net.npart c)).2.2]; rfl

/-! ### reachability -/

theorem reach_sb {L : Nat} (net : Net pr part N L) {k : Nat} {lbo : Option Nat} {ws : Nat → Exec (WSt σ) P}
    (h : Reach pr part N L k lbo ws) :
    ∃ n s, Serial pr n s ∧ SB pr part N lbo s ws ∧
      (0 < k → ∀ t, lbo = some t → ∃ e ∈ s.mgr.queue, e.time = t) ∧ (lbo = none → s.mgr.queue = []) := by
  induction h with
  | start h =>
    obtain ⟨s, h1, _, h3⟩ := setup_sb net
    exact ⟨0, s, Serial.start h1, h3 _ h, by omega, by intro h; cases h⟩
  | @round k lb ws ws' _ hround ih =>
    obtain ⟨n, s, hser, hsb, _⟩ := ih
    have hch : ∃ (ms : Nat → Exec (WSt σ) P) (ns : Nat → Nat), ∀ w, w < N →
        (∃ inc, inc.Perm (pendingFor pr part N (fun v => (ws v).mgr) w) ∧ register inc (ws w) = some (ms w)) ∧
        Runs true (handler pr part w) (some (lb + L)) (ns w) (ms w) (ws' w) := by
      have : ∀ w, ∃ (m : Exec (WSt σ) P) (n : Nat), w < N →
          (∃ inc, inc.Perm (pendingFor pr part N (fun v => (ws v).mgr) w) ∧ register inc (ws w) = some m) ∧
          Runs true (handler pr part w) (some (lb + L)) n m (ws' w) := by
        intro w
        by_cases hw : w < N
        · obtain ⟨inc, m, n, h1, h2, h3⟩ := hround w hw
          exact ⟨m, n, fun _ => ⟨⟨inc, h1, h2⟩, h3⟩⟩
        · exact ⟨ws w, 0, fun h => absurd h hw⟩
      exact ⟨fun w => (this w).choose, fun w => (this w).choose_spec.choose,
        fun w => (this w).choose_spec.choose_spec⟩
    obtain ⟨ms, ns, hms⟩ := hch
    have hX := rx_of_sb net hsb (fun w hw => (hms w hw).1)
    obtain ⟨m, s', g1, g2, g3⟩ := window_of_workers net _ ns s ms ws' rfl hX (fun w hw => (hms w hw).2)
    obtain ⟨h1, h2, h3⟩ := sb_of_rx net g3 g2
    exact ⟨n + m, s', serial_steps hser g1, h1, fun _ t ht => (h2 t ht).2, h3⟩

theorem serial_det {n : Nat} {x y : Exec (WSt σ) P} (h1 : Serial pr n x) (h2 : Serial pr n y) : x = y := by
  induction n generalizing x y with
  | zero =>
    cases h1 with | start h1 => cases h2 with | start h2 => rw [h1] at h2; cases h2; rfl
  | succ n ih =>
    cases h1 with
    | next h1 g1 =>
      cases h2 with
      | next h2 g2 =>
        have := ih h1 h2
        subst this
        rw [g1] at g2; cases g2; rfl

theorem serial_prefix {n m : Nat} {x y : Exec (WSt σ) P} (h1 : Serial pr n x) (h2 : Serial pr (n + m) y) :
    Steps pr m x y := by
  induction m generalizing y with
  | zero => rw [serial_det h1 h2]; exact Steps.refl
  | succ m ih =>
    cases h2 with
    | next h2 g2 =>
      have := ih h2
      exact this.trans (Steps.step g2 Steps.refl)

theorem serial_end {n m : Nat} {x y : Exec (WSt σ) P} (h1 : Serial pr n x) (hx : x.mgr.queue = [])
    (h2 : Serial pr m y) : m ≤ n := by
  rcases Nat.le_total m n with h | h
  · exact h
  · obtain ⟨d, rfl⟩ := Nat.exists_eq_add_of_le h
    have := serial_prefix h1 h2
    cases this with
    | refl => omega
    | step h => simp [step, hx] at h

/-- from a between-round state, if the serial run finishes, the parallel run finishes -/
theorem finish {L : Nat} (net : Net pr part N L) (tot : Nat) :
    ∀ {n : Nat} {s sEnd : Exec (WSt σ) P} {k lb : Nat} {ws : Nat → Exec (WSt σ) P},
      Reach pr part N L k (some lb) ws → Serial pr n s → SB pr part N (some lb) s ws →
      Steps pr tot s sEnd → sEnd.mgr.queue = [] → (∃ e ∈ s.mgr.queue, e.time = lb) →
      ∃ k' ws', Reach pr part N L k' none ws' := by
  induction tot using Nat.strongRecOn with
  | _ tot ih =>
    intro n s sEnd k lb ws hreach hser hsb hsteps hend hatt
    have hreg : ∀ w, ∃ m, w < N → register (pendingFor pr part N (fun v => (ws v).mgr) w) (ws w) = some m := by
      intro w
      by_cases hw : w < N
      · obtain ⟨m, hm, _⟩ := register_ok hsb hw (List.Perm.refl _)
        exact ⟨m, fun _ => hm⟩
      · exact ⟨ws w, fun h => absurd h hw⟩
    have hX := rx_of_sb net hsb (ms := fun w => (hreg w).choose)
      (fun w hw => ⟨_, List.Perm.refl _, (hreg w).choose_spec hw⟩)
    obtain ⟨ys, m, j, s', g1, g2, g3, g4, g5, g6, g7⟩ := window_of_serial net hsteps hend _ hX
    have hround : Round pr part N L lb ws ys := by
      intro w hw
      obtain ⟨r, hr⟩ := g1 w hw
      exact ⟨_, _, r, List.Perm.refl _, (hreg w).choose_spec hw, hr⟩
    have hreach' := Reach.round hreach hround
    obtain ⟨h1, h2, _⟩ := sb_of_rx net g6 g5
    cases hb : nextBound N ys with
    | none => rw [hb] at hreach'; exact ⟨_, _, hreach'⟩
    | some t =>
      rw [hb] at hreach' h1
      have hm : 0 < m := by
        apply g7
        obtain ⟨e, he, het⟩ := hatt
        have := net.pos
        exact ⟨e, he, by omega⟩
      exact ih j (by omega) hreach' (serial_steps hser g2) h1 g3 hend (h2 t hb).2

theorem finish0 {L : Nat} (net : Net pr part N L) {tot : Nat}
    {n : Nat} {s sEnd : Exec (WSt σ) P} {k lb : Nat} {ws : Nat → Exec (WSt σ) P}
    (hreach : Reach pr part N L k (some lb) ws) (hser : Serial pr n s) (hsb : SB pr part N (some lb) s ws)
    (hsteps : Steps pr tot s sEnd) (hend : sEnd.mgr.queue = []) :
    ∃ k' ws', Reach pr part N L k' none ws' := by
  have hreg : ∀ w, ∃ m, w < N → register (pendingFor pr part N (fun v => (ws v).mgr) w) (ws w) = some m := by
    intro w
    by_cases hw : w < N
    · obtain ⟨m, hm, _⟩ := register_ok hsb hw (List.Perm.refl _)
      exact ⟨m, fun _ => hm⟩
    · exact ⟨ws w, fun h => absurd h hw⟩
  have hX := rx_of_sb net hsb (ms := fun w => (hreg w).choose)
    (fun w hw => ⟨_, List.Perm.refl _, (hreg w).choose_spec hw⟩)
  obtain ⟨ys, m, j, s', g1, g2, g3, g4, g5, g6, g7⟩ := window_of_serial net hsteps hend _ hX
  have hround : Round pr part N L lb ws ys := by
    intro w hw
    obtain ⟨r, hr⟩ := g1 w hw
    exact ⟨_, _, r, List.Perm.refl _, (hreg w).choose_spec hw, hr⟩
  have hreach' := Reach.round hreach hround
  obtain ⟨h1, h2, _⟩ := sb_of_rx net g6 g5
  cases hb : nextBound N ys with
  | none => rw [hb] at hreach'; exact ⟨_, _, hreach'⟩
  | some t =>
    rw [hb] at hreach' h1
    exact finish net j hreach' (serial_steps hser g2) h1 g3 hend (h2 t hb).2

/-! ### a worker on its own never aborts -/

/-- Invariant of a worker on its own. -/
structure LI (pr : Program σ P) (part : Nat → Nat) (w : Nat) (m : Mgr P) (sq : Nat → Nat) : Prop where
  sorted : Sorted m.queue
  now : ∀ e ∈ m.queue, m.now ≤ e.time
  dst : ∀ e ∈ m.queue, part (pr.dst e.link) = w
  fresh : ∀ e ∈ m.queue, part (pr.src e.link) = w → e.seq < sq e.link

theorem li_emit {w : Nat} (os : List (Send P)) (hsrc : ∀ o ∈ os, part (pr.src o.port) = w) :
    ∀ {m : Mgr P} {sq : Nat → Nat} (_ : LI pr part w m sq),
    ∃ m', mgrActs m (emit pr part w m.now sq os).2 = some m' ∧
      LI pr part w m' (emit pr part w m.now sq os).1 := by
  induction os with
  | nil => intro m sq h; exact ⟨m, rfl, h⟩
  | cons o os ih =>
    intro m sq h
    have ho := hsrc o (List.mem_cons_self ..)
    have ih' := fun {m} {sq} => ih (fun o' h => hsrc o' (List.mem_cons_of_mem _ h)) (m := m) (sq := sq)
    have hmono : ∀ e ∈ m.queue, part (pr.src e.link) = w →
        e.seq < upd sq o.port (sq o.port + 1) e.link := by
      intro e he hs
      have := h.fresh e he hs
      by_cases hl : e.link = o.port
      · rw [hl, upd_same]; rw [hl] at this; omega
      · rw [upd_ne _ _ hl]; exact this
    simp only [emit]
    split
    · rename_i hd
      let e : Event P := ⟨m.now + o.delay + pr.latency o.port, o.port, sq o.port, o.payload⟩
      have hfr : ∀ x ∈ m.queue, ¬ SameKey e x := by
        intro x hx hk
        have hl : x.link = o.port := hk.2.1.symm
        have hs : x.seq = sq o.port := hk.2.2.symm
        have := h.fresh x hx (by rw [hl]; exact ho)
        rw [hl] at this; omega
      have h1 : schedule true m e = some { m with queue := insert e m.queue } :=
        (schedule_true_iff h.sorted).2 ⟨by simp only [e]; omega, hfr, rfl⟩
      simp only [mgrActs, mgrAct]
      rw [show schedule true m (⟨m.now + o.delay + pr.latency o.port, o.port, sq o.port, o.payload⟩ : Event P) = some { m with queue := insert e m.queue } from h1]
      refine ih' (m := { m with queue := insert e m.queue }) ⟨insert_sorted h.sorted, ?_, ?_, ?_⟩
      all_goals
        intro x hx
        rcases mem_of_mem_insert hx with rfl | hx
      · simp only [e]; omega
      · exact h.now x hx
      · exact hd
      · exact h.dst x hx
      · intro _; simp only [e, upd_same]; omega
      · exact hmono x hx
    · simp only [mgrActs, mgrAct]
      exact ih' (m := { m with minIpc := _, outbox := _ }) ⟨h.sorted, h.now, h.dst, hmono⟩

theorem li_step {L : Nat} (net : Net pr part N L) {w : Nat} {horizon : Option Nat} {x : Exec (WSt σ) P}
    (h : LI pr part w x.mgr x.user.seq) :
    step true (handler pr part w) horizon x ≠ .abort ∧
    ∀ y, step true (handler pr part w) horizon x = .next y → LI pr part w y.mgr y.user.seq := by
  cases hq : x.mgr.queue with
  | nil =>
    constructor
    · simp [step, hq]
    · intro y hy; simp [step, hq] at hy
  | cons e q =>
    have hm : e ∈ x.mgr.queue := by simp [hq]
    have hnow := h.now e hm
    have hnlt : ¬ e.time < x.mgr.now := by omega
    have hs := h.sorted
    rw [hq, Sorted, List.pairwise_cons] at hs
    simp only [step, hq, decide_eq_false hnlt, Bool.and_false, Bool.false_eq_true, if_false]
    split
    · simp
    · let c := pr.dst e.link
      have hc : part c = w := h.dst e hm
      have hli : LI pr part w { x.mgr with now := e.time, queue := q } x.user.seq := by
        refine ⟨hs.2, ?_, ?_, ?_⟩
        · intro e' he'
          have := hs.1 e' he'
          rw [lt_iff] at this
          simp only; omega
        · intro e' he'; exact h.dst e' (by rw [hq]; exact List.mem_cons_of_mem _ he')
        · intro e' he'; exact h.fresh e' (by rw [hq]; exact List.mem_cons_of_mem _ he')
      obtain ⟨m', g1, g2⟩ := li_emit (pr.handle c (x.user.st c) e).2
        (by intro o ho; rw [net.handle_src c _ e o ho]; exact hc) hli
      obtain ⟨y, y1, y2, y3, y4⟩ := (doActs_mgr (x := (⟨{ x.mgr with now := e.time, queue := q },
        (handler pr part w x.user e).1, x.trace ++ [e], x.calls⟩ : Exec (WSt σ) P))).2 m' g1
      have : doActs true (⟨{ x.mgr with now := e.time, queue := q },
        (handler pr part w x.user e).1, x.trace ++ [e], x.calls⟩ : Exec (WSt σ) P) (handler pr part w x.user e).2 = some y := y1
      rw [this]
      constructor
      · simp
      · intro z hz
        cases hz
        rw [y2, y3]
        exact g2

theorem window_safe {L lb : Nat} (net : Net pr part N L) {s : Exec (WSt σ) P} {ws : Nat → Exec (WSt σ) P}
    (h : SB pr part N (some lb) s ws) {w : Nat} (hw : w < N) {inc : List (Event P)}
    (hinc : inc.Perm (pendingFor pr part N (fun v => (ws v).mgr) w)) {m : Exec (WSt σ) P}
    (hm : register inc (ws w) = some m) {horizon : Option Nat} {n : Nat} {x : Exec (WSt σ) P}
    (hx : Prefix (handler pr part w) horizon n m x) :
    step true (handler pr part w) horizon x ≠ .abort := by
  obtain ⟨m', g1, g2, g3, g4, g5, g6⟩ := register_ok h hw hinc
  rw [hm] at g1
  cases g1
  have h0 : LI pr part w m.mgr m.user.seq := by
    have hmem : ∀ e ∈ m.mgr.queue, e ∈ s.mgr.queue.filter (dest pr part w) := fun e he =>
      (h.perm w hw).mem_iff.2 ((hinc.append_left _).mem_iff.1 (g6.mem_iff.1 he))
    refine ⟨g5, ?_, ?_, ?_⟩
    · intro e he
      have h1 := sb_pending_ge h hw ((h.perm w hw).mem_iff.1 (hmem e he))
      have h2 := h.nlb lb rfl w hw
      rw [g4]; simp only; omega
    · intro e he
      have := (List.mem_filter.1 (hmem e he)).2
      simpa [dest] using this
    · intro e he hsrc
      have := h.fresh e (List.mem_filter.1 (hmem e he)).1
      rw [← h.sq e.link, hsrc] at this
      rw [g2]; exact this
  have : LI pr part w x.mgr x.user.seq := by
    induction hx with
    | refl => exact h0
    | next _ hstep ih => exact (li_step net (ih hm g2 g3 g4 g5 g6 h0)).2 _ hstep
  exact (li_step net this).1

/-! ### message passing -/

theorem mgrActs_schedules {as : List (Act P)} {m m' : Mgr P} (ha : ∀ a ∈ as, ∃ e, a = .schedule e)
    (h : mgrActs m as = some m') : m'.minIpc = m.minIpc ∧ m'.outbox = m.outbox := by
  induction as generalizing m with
  | nil => simp [mgrActs] at h; subst h; exact ⟨rfl, rfl⟩
  | cons a as ih =>
    obtain ⟨e, rfl⟩ := ha a (List.mem_cons_self ..)
    simp only [mgrActs, mgrAct] at h
    split at h
    · cases h
    · rename_i m1 hm1
      have := ih (fun a h => ha a (List.mem_cons_of_mem _ h)) h
      rw [schedule_some hm1] at this
      exact this

theorem emit_local {w now : Nat} {os : List (Send P)} (h : ∀ o ∈ os, part (pr.dst o.port) = w) :
    ∀ sq, ∀ a ∈ (emit pr part w now sq os).2, ∃ e, a = .schedule e := by
  induction os with
  | nil => intro sq a ha; simp [emit] at ha
  | cons o os ih =>
    intro sq a ha
    simp only [emit, List.mem_cons, h o (List.mem_cons_self ..), if_true] at ha
    rcases ha with rfl | ha
    · exact ⟨_, rfl⟩
    · exact ih (fun o h' => h o (List.mem_cons_of_mem _ h')) _ a ha

theorem ipc_reach' {L : Nat} 
    (hsetup : ∀ c o, o ∈ pr.setup c → part (pr.dst o.port) = part c)
    {k : Nat} {lbo : Option Nat} {zs : Nat → Exec (WSt σ) P} (h : ReachIpc pr part N L k lbo zs) :
    ∃ ws, Reach pr part N L k lbo ws ∧ ∀ w, w < N → ∃ inc,
      inc.Perm (pendingFor pr part N (fun v => (ws v).mgr) w) ∧ register inc (ws w) = some (zs w) := by
  induction h with
  | @start ws h =>
    refine ⟨ws, Reach.start h, ?_⟩
    have hl : ∀ w, w < N → (ws w).mgr.minIpc = none ∧ (ws w).mgr.outbox = [] := by
      intro w hw
      have h1 := (doActs_mgr.1 _ (h w hw)).1
      refine mgrActs_schedules (emit_local ?_ _) h1
      intro o ho
      obtain ⟨c, hc, ho⟩ := List.mem_flatMap.1 ho
      rw [hsetup c o ho]
      simpa using (List.mem_filter.1 hc).2
    intro w hw
    refine ⟨[], ?_, ?_⟩
    · have : pendingFor pr part N (fun v => (ws v).mgr) w = [] := by
        unfold pendingFor
        rw [List.flatMap_eq_nil_iff]
        intro v hv
        simp only [(hl v (List.mem_range.1 hv)).2, List.filter_nil]
      rw [this]
    · have h2 := (hl w hw).2
      simp only [register, List.map_nil, doActs, ipcStart]
      rw [← h2]
  | @round k lb zs ys zs' _ hr ih =>
    obtain ⟨ws, h1, h2⟩ := ih
    refine ⟨ys, Reach.round h1 ?_, fun w hw => (hr w hw).2⟩
    intro w hw
    obtain ⟨inc, i1, i2⟩ := h2 w hw
    obtain ⟨n, hn⟩ := (hr w hw).1
    exact ⟨inc, zs w, n, i1, i2, hn⟩

theorem ipc_reach {L : Nat} 
    (hsetup : ∀ c o, o ∈ pr.setup c → part (pr.dst o.port) = part c)
    {k : Nat} {lbo : Option Nat} {zs : Nat → Exec (WSt σ) P} (h : ReachIpc pr part N L k lbo zs) :
    ∃ ws, Reach pr part N L k lbo ws ∧ ∀ w, w < N →
      (zs w).trace = (ws w).trace ∧ (zs w).user = (ws w).user := by
  obtain ⟨ws, h1, h2⟩ := ipc_reach' hsetup h
  refine ⟨ws, h1, fun w hw => ?_⟩
  obtain ⟨inc, _, i2⟩ := h2 w hw
  have := doActs_mgr.1 _ i2
  exact ⟨this.2.2, this.2.1⟩

end SST.Parallel
