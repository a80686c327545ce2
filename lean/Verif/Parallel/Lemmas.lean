import Verif.Events.Lemmas2
import Verif.Parallel.Model
/-! Simulation between the windowed parallel run and the serial run. -/
namespace SST.Parallel
open SST.Events
variable {σ P S : Type}

@[simp] theorem upd_same {α} (f : Nat → α) (i : Nat) (a : α) : upd f i a i = a := by simp [upd]
theorem upd_ne {α} (f : Nat → α) {i j : Nat} (a : α) (h : j ≠ i) : upd f i a j = f j := by simp [upd, h]

/-! ### actions at the level of the manager -/

/-- An action of a handler, as a change of the manager. -/
def mgrAct (m : Mgr P) : Act P → Option (Mgr P)
  | .schedule e => schedule true m e
  | .remote e => some { m with minIpc := minTime (some e.time) m.minIpc, outbox := m.outbox ++ [e] }
  | .stop => some { m with queue := [], minIpc := none, stopped := true }

/-- The actions of a handler, in order. -/
def mgrActs (m : Mgr P) : List (Act P) → Option (Mgr P)
  | [] => some m
  | a :: as =>
    match mgrAct m a with
    | none => none
    | some m' => mgrActs m' as

theorem doActs_mgr {as : List (Act P)} {x : Exec S P} :
    (∀ y, doActs true x as = some y → mgrActs x.mgr as = some y.mgr ∧ y.user = x.user ∧ y.trace = x.trace) ∧
    (∀ m, mgrActs x.mgr as = some m → ∃ y, doActs true x as = some y ∧ y.mgr = m ∧ y.user = x.user ∧ y.trace = x.trace) := by
  induction as generalizing x with
  | nil =>
    constructor
    · intro y h; simp [doActs] at h; subst h; simp [mgrActs]
    · intro m h; simp [mgrActs] at h; subst h; exact ⟨x, rfl, rfl, rfl, rfl⟩
  | cons a as ih =>
    have key : ∀ z, doAct true x a = some z → mgrAct x.mgr a = some z.mgr ∧ z.user = x.user ∧ z.trace = x.trace := by
      intro z hz
      cases a with
      | schedule e =>
        simp only [doAct] at hz
        split at hz
        · cases hz
        · rename_i m hm; cases hz; exact ⟨hm, rfl, rfl⟩
      | remote e => simp only [doAct] at hz; cases hz; exact ⟨rfl, rfl, rfl⟩
      | stop => simp only [doAct] at hz; cases hz; exact ⟨rfl, rfl, rfl⟩
    have key2 : ∀ m, mgrAct x.mgr a = some m → ∃ z, doAct true x a = some z ∧ z.mgr = m ∧ z.user = x.user ∧ z.trace = x.trace := by
      intro m hm
      cases a with
      | schedule e => simp only [mgrAct] at hm; simp only [doAct, hm]; exact ⟨_, rfl, rfl, rfl, rfl⟩
      | remote e => simp only [mgrAct] at hm; cases hm; exact ⟨_, rfl, rfl, rfl, rfl⟩
      | stop => simp only [mgrAct] at hm; cases hm; exact ⟨_, rfl, rfl, rfl, rfl⟩
    constructor
    · intro y h
      simp only [doActs] at h
      split at h
      · cases h
      · rename_i z hz
        obtain ⟨h1, h2, h3⟩ := key z hz
        obtain ⟨g1, g2, g3⟩ := (ih (x := z)).1 y h
        exact ⟨by simp [mgrActs, h1, g1], by rw [g2, h2], by rw [g3, h3]⟩
    · intro m h
      simp only [mgrActs] at h
      split at h
      · cases h
      · rename_i m' hm'
        obtain ⟨z, h1, h2, h3, h4⟩ := key2 m' hm'
        obtain ⟨y, g1, g2, g3, g4⟩ := (ih (x := z)).2 m (by rw [h2]; exact h)
        exact ⟨y, by simp [doActs, h1, g1], g2, by rw [g3, h3], by rw [g4, h4]⟩

theorem mgrActs_append (m : Mgr P) (as bs : List (Act P)) :
    mgrActs m (as ++ bs) = (mgrActs m as).bind (fun m' => mgrActs m' bs) := by
  induction as generalizing m with
  | nil => simp [mgrActs]
  | cons a as ih =>
    simp only [List.cons_append, mgrActs]
    split
    · simp
    · exact ih _

theorem mgrActs_fill (m : Mgr P) (l : List (Event P)) :
    mgrActs m (l.map Act.schedule) = fill true m l := by
  induction l generalizing m with
  | nil => rfl
  | cons e es ih =>
    simp only [List.map_cons, mgrActs, mgrAct, fill]
    cases schedule true m e with
    | none => rfl
    | some m' => exact ih m'

/-! ### pending lists -/

theorem flatMap_update {α} {l : List Nat} (hl : l.Nodup) {v : Nat} (hv : v ∈ l)
    {f g : Nat → List α} {t : List α} (h1 : g v = f v ++ t) (h2 : ∀ u, u ≠ v → g u = f u) :
    (l.flatMap g).Perm (l.flatMap f ++ t) := by
  induction l with
  | nil => simp at hv
  | cons a l ih =>
    rw [List.nodup_cons] at hl
    simp only [List.flatMap_cons]
    by_cases ha : a = v
    · subst ha
      have : l.flatMap g = l.flatMap f := by
        have : ∀ u ∈ l, g u = f u := fun u hu => h2 u (fun h => hl.1 (h ▸ hu))
        clear ih hv
        induction l with
        | nil => rfl
        | cons b l ih =>
          simp only [List.flatMap_cons]
          rw [this b (List.mem_cons_self ..), ih ?_ (fun u hu => this u (List.mem_cons_of_mem _ hu))]
          rw [List.nodup_cons] at hl
          exact ⟨fun h => hl.1 (List.mem_cons_of_mem _ h), hl.2.2⟩
      rw [this, h1]
      simp only [List.append_assoc]
      exact List.Perm.append_left _ List.perm_append_comm
    · rw [h2 a ha, List.append_assoc]
      have hv' : v ∈ l := by
        rcases List.mem_cons.1 hv with h | h
        · exact absurd h.symm ha
        · exact h
      exact List.Perm.append_left _ (ih hl.2 hv')

variable (pr : Program σ P) (part : Nat → Nat) (N : Nat)

/-- destination worker test -/
abbrev dest (w : Nat) (e : Event P) : Bool := part (pr.dst e.link) == w

theorem pend_add {ms : Nat → Mgr P} {v : Nat} (hv : v < N) {m : Mgr P} {e : Event P}
    (hm : m.outbox = (ms v).outbox ++ [e]) (w : Nat) :
    (pendingFor pr part N (upd ms v m) w).Perm
      (pendingFor pr part N ms w ++ (if dest pr part w e then [e] else [])) := by
  refine flatMap_update List.nodup_range (v := v) (List.mem_range.2 hv) ?_ ?_
  · simp only [upd_same, hm, List.filter_append, List.filter_cons, List.filter_nil]
  · intro u hu; simp only [upd_ne ms m hu]

theorem pend_same {ms : Nat → Mgr P} {v : Nat} {m : Mgr P}
    (hm : m.outbox = (ms v).outbox) (w : Nat) :
    pendingFor pr part N (upd ms v m) w = pendingFor pr part N ms w := by
  unfold pendingFor
  congr 1
  funext u
  by_cases hu : u = v
  · subst hu; simp [hm]
  · rw [upd_ne ms m hu]

theorem mem_pending {ms : Nat → Mgr P} {w : Nat} {e : Event P} :
    e ∈ pendingFor pr part N ms w ↔ (∃ v, v < N ∧ e ∈ (ms v).outbox) ∧ part (pr.dst e.link) = w := by
  simp only [pendingFor, List.mem_flatMap, List.mem_range, List.mem_filter, beq_iff_eq]
  constructor
  · rintro ⟨v, h1, h2, h3⟩; exact ⟨⟨v, h1, h2⟩, h3⟩
  · rintro ⟨⟨v, h1, h2⟩, h3⟩; exact ⟨v, h1, h2, h3⟩

/-! ### relation between the serial manager and the workers' managers -/

/-- what `min_ipc_time_` means -/
structure IpcOk (m : Mgr P) : Prop where
  none : m.minIpc = none → m.outbox = []
  some : ∀ t, m.minIpc = some t → (∃ e ∈ m.outbox, e.time = t) ∧ ∀ e ∈ m.outbox, t ≤ e.time

/-- The serial manager and the managers of the workers hold the same events. -/
structure RM (lb H : Nat) (ms : Mgr P) (sq : Nat → Nat) (mw : Nat → Mgr P) : Prop where
  perm : ∀ w, w < N → (ms.queue.filter (dest pr part w)).Perm ((mw w).queue ++ pendingFor pr part N mw w)
  out_ge : ∀ v, v < N → ∀ e ∈ (mw v).outbox, H ≤ e.time
  sorted_s : Sorted ms.queue
  sorted_w : ∀ w, w < N → Sorted (mw w).queue
  fresh : ∀ e ∈ ms.queue, e.seq < sq e.link
  ns : ∀ e ∈ ms.queue, ms.now ≤ e.time
  nw : ∀ w, w < N → ∀ e ∈ (mw w).queue, (mw w).now ≤ e.time
  lbq : ∀ e ∈ ms.queue, lb ≤ e.time
  nH : ∀ w, w < N → (mw w).now < H
  ipc : ∀ w, w < N → IpcOk (mw w)
  stop_s : ms.stopped = false
  stop_w : ∀ w, w < N → (mw w).stopped = false

theorem ipc_add {m : Mgr P} (h : IpcOk m) (e : Event P) :
    IpcOk { m with minIpc := minTime (some e.time) m.minIpc, outbox := m.outbox ++ [e] } := by
  cases hm : m.minIpc with
  | none =>
    have := h.none hm
    constructor
    · simp [minTime]
    · intro t ht
      simp only [minTime] at ht
      cases ht
      simp [this]
  | some t0 =>
    obtain ⟨⟨e0, he0, ht0⟩, hall⟩ := h.some t0 hm
    constructor
    · simp [minTime]
    · intro t ht
      simp only [minTime] at ht
      cases ht
      constructor
      · by_cases hle : e.time ≤ t0
        · exact ⟨e, by simp, by omega⟩
        · exact ⟨e0, by simp [he0], by omega⟩
      · intro e' he'
        simp only [List.mem_append, List.mem_singleton] at he'
        rcases he' with he' | rfl
        · have := hall e' he'; omega
        · omega

variable {pr part N}

theorem filter_insert_perm {e : Event P} {q : List (Event P)} (p : Event P → Bool)
    (h : (insert e q).Perm (e :: q)) :
    ((insert e q).filter p).Perm (q.filter p ++ (if p e then [e] else [])) := by
  refine (h.filter p).trans ?_
  simp only [List.filter_cons]
  split
  · exact (List.perm_append_singleton _ _).symm
  · simp

/-- one send, performed by the serial manager and by worker `v` -/
theorem rm_send {L lb : Nat} (net : Net pr part N L) {ms : Mgr P} {sq sqv : Nat → Nat}
    {mw : Nat → Mgr P} {v now : Nat} (hv : v < N) (hR : RM pr part N lb (lb + L) ms sq mw)
    (hns : ms.now = now) (hnw : (mw v).now = now) (hlb : lb ≤ now)
    (o : Send P) (hsrc : part (pr.src o.port) = v) (hsq : sqv o.port = sq o.port) :
    ∃ ms' mv',
      mgrAct ms (.schedule ⟨now + o.delay + pr.latency o.port, o.port, sq o.port, o.payload⟩) = some ms' ∧
      mgrAct (mw v) (if part (pr.dst o.port) = v
        then .schedule ⟨now + o.delay + pr.latency o.port, o.port, sqv o.port, o.payload⟩
        else .remote ⟨now + o.delay + pr.latency o.port, o.port, sqv o.port, o.payload⟩) = some mv' ∧
      ms'.now = now ∧ mv'.now = now ∧
      RM pr part N lb (lb + L) ms' (upd sq o.port (sq o.port + 1)) (upd mw v mv') := by
  rw [hsq]
  generalize hev : (⟨now + o.delay + pr.latency o.port, o.port, sq o.port, o.payload⟩ : Event P) = e
  have het : now ≤ e.time := by rw [← hev]; simp only; omega
  have hel : e.link = o.port := by rw [← hev]
  have hes : e.seq = sq o.port := by rw [← hev]
  -- serial side
  have hfreshS : ∀ x ∈ ms.queue, ¬ SameKey e x := by
    intro x hx hk
    have := hR.fresh x hx
    obtain ⟨_, h2, h3⟩ := hk
    rw [← h2, ← h3, hel, hes] at this
    omega
  have hS : mgrAct ms (.schedule e) = some { ms with queue := insert e ms.queue } :=
    (schedule_true_iff hR.sorted_s).2 ⟨by omega, hfreshS, rfl⟩
  have hSp := insert_fresh hfreshS
  -- facts common to both cases about the serial state
  have sF : ∀ x ∈ insert e ms.queue, x.seq < upd sq o.port (sq o.port + 1) x.link := by
    intro x hx
    rcases mem_of_mem_insert hx with rfl | hx
    · rw [hel, upd_same, hes]; omega
    · have := hR.fresh x hx
      by_cases hxl : x.link = o.port
      · rw [hxl, upd_same]; rw [hxl] at this; omega
      · rw [upd_ne _ _ hxl]; exact this
  have sN : ∀ x ∈ insert e ms.queue, ms.now ≤ x.time := by
    intro x hx
    rcases mem_of_mem_insert hx with rfl | hx
    · omega
    · exact hR.ns x hx
  have sL : ∀ x ∈ insert e ms.queue, lb ≤ x.time := by
    intro x hx
    rcases mem_of_mem_insert hx with rfl | hx
    · omega
    · exact hR.lbq x hx
  by_cases hloc : part (pr.dst o.port) = v
  · -- local
    simp only [hloc, if_true]
    have hfreshW : ∀ x ∈ (mw v).queue, ¬ SameKey e x := by
      intro x hx
      have : x ∈ ms.queue.filter (dest pr part v) :=
        (hR.perm v hv).mem_iff.2 (List.mem_append_left _ hx)
      exact hfreshS x (List.mem_filter.1 this).1
    have hW : mgrAct (mw v) (.schedule e) = some { mw v with queue := insert e (mw v).queue } :=
      (schedule_true_iff (hR.sorted_w v hv)).2 ⟨by omega, hfreshW, rfl⟩
    have hWp := insert_fresh hfreshW
    refine ⟨_, _, hS, hW, hns, hnw, ?_⟩
    have hpd := fun w => pend_same pr part N (ms := mw) (v := v)
      (m := { mw v with queue := insert e (mw v).queue }) rfl w
    refine ⟨?_, ?_, insert_sorted hR.sorted_s, ?_, sF, sN, ?_, sL, ?_, ?_, hR.stop_s, ?_⟩
    · intro w hw
      refine (filter_insert_perm _ hSp).trans ?_
      rw [hpd]
      by_cases hwv : w = v
      · subst hwv
        have : dest pr part w e = true := by simp [dest, hel, hloc]
        simp only [this, if_true, upd_same]
        refine ((hR.perm w hw).append_right _).trans ?_
        refine List.Perm.trans ?_ (hWp.symm.append_right _)
        exact List.perm_append_singleton _ _
      · have : dest pr part w e = false := by
          simp only [dest, hel, hloc, beq_eq_false_iff_ne]; exact fun h => hwv h.symm
        simp only [this, upd_ne mw _ hwv]
        simpa using hR.perm w hw
    · intro u hu x hx
      by_cases huv : u = v
      · subst huv; rw [upd_same] at hx; exact hR.out_ge u hu x hx
      · rw [upd_ne mw _ huv] at hx; exact hR.out_ge u hu x hx
    · intro w hw
      by_cases hwv : w = v
      · subst hwv; rw [upd_same]; exact insert_sorted (hR.sorted_w w hw)
      · rw [upd_ne mw _ hwv]; exact hR.sorted_w w hw
    · intro w hw x hx
      by_cases hwv : w = v
      · subst hwv
        rw [upd_same] at hx ⊢
        rcases mem_of_mem_insert hx with rfl | hx
        · simp only; omega
        · exact hR.nw w hw x hx
      · rw [upd_ne mw _ hwv] at hx ⊢; exact hR.nw w hw x hx
    · intro w hw
      by_cases hwv : w = v
      · subst hwv; rw [upd_same]; exact hR.nH w hw
      · rw [upd_ne mw _ hwv]; exact hR.nH w hw
    · intro w hw
      by_cases hwv : w = v
      · subst hwv; rw [upd_same]; exact ⟨(hR.ipc w hw).1, (hR.ipc w hw).2⟩
      · rw [upd_ne mw _ hwv]; exact hR.ipc w hw
    · intro w hw
      by_cases hwv : w = v
      · subst hwv; rw [upd_same]; exact hR.stop_w w hw
      · rw [upd_ne mw _ hwv]; exact hR.stop_w w hw
  · -- remote
    simp only [hloc, if_false]
    refine ⟨_, _, hS, rfl, hns, hnw, ?_⟩
    have hge : lb + L ≤ e.time := by
      have := net.lat o.port (by rw [hsrc]; exact fun h => hloc h.symm)
      rw [← hev]; simp only; omega
    have hpd := fun w => pend_add pr part N (ms := mw) hv
      (m := { mw v with minIpc := minTime (some e.time) (mw v).minIpc, outbox := (mw v).outbox ++ [e] })
      (e := e) rfl w
    refine ⟨?_, ?_, insert_sorted hR.sorted_s, ?_, sF, sN, ?_, sL, ?_, ?_, hR.stop_s, ?_⟩
    · intro w hw
      refine (filter_insert_perm _ hSp).trans ?_
      refine List.Perm.trans ?_ ((hpd w).symm.append_left _)
      rw [← List.append_assoc]
      refine List.Perm.append_right _ ?_
      by_cases hwv : w = v
      · subst hwv; rw [upd_same]; exact hR.perm w hw
      · rw [upd_ne mw _ hwv]; exact hR.perm w hw
    · intro u hu x hx
      by_cases huv : u = v
      · subst huv
        rw [upd_same] at hx
        simp only [List.mem_append, List.mem_singleton] at hx
        rcases hx with hx | rfl
        · exact hR.out_ge u hu x hx
        · exact hge
      · rw [upd_ne mw _ huv] at hx; exact hR.out_ge u hu x hx
    · intro w hw
      by_cases hwv : w = v
      · subst hwv; rw [upd_same]; exact hR.sorted_w w hw
      · rw [upd_ne mw _ hwv]; exact hR.sorted_w w hw
    · intro w hw x hx
      by_cases hwv : w = v
      · subst hwv; rw [upd_same] at hx ⊢; exact hR.nw w hw x hx
      · rw [upd_ne mw _ hwv] at hx ⊢; exact hR.nw w hw x hx
    · intro w hw
      by_cases hwv : w = v
      · subst hwv; rw [upd_same]; exact hR.nH w hw
      · rw [upd_ne mw _ hwv]; exact hR.nH w hw
    · intro w hw
      by_cases hwv : w = v
      · subst hwv; rw [upd_same]; exact ipc_add (hR.ipc w hw) e
      · rw [upd_ne mw _ hwv]; exact hR.ipc w hw
    · intro w hw
      by_cases hwv : w = v
      · subst hwv; rw [upd_same]; exact hR.stop_w w hw
      · rw [upd_ne mw _ hwv]; exact hR.stop_w w hw

theorem upd_upd {α} (f : Nat → α) (i : Nat) (a b : α) : upd (upd f i a) i b = upd f i b := by
  funext j; unfold upd; split <;> rfl

/-- all sends of one handler -/
theorem rm_emit {L lb : Nat} (net : Net pr part N L) {v now : Nat} (hv : v < N) (hlb : lb ≤ now)
    (os : List (Send P)) (hsrc : ∀ o ∈ os, part (pr.src o.port) = v) :
    ∀ {ms : Mgr P} {sq sqv : Nat → Nat} {mw : Nat → Mgr P}
      (_hR : RM pr part N lb (lb + L) ms sq mw)
      (_hns : ms.now = now) (_hnw : (mw v).now = now)
      (_hsq : ∀ l, part (pr.src l) = v → sqv l = sq l),
    ∃ ms' mv',
      mgrActs ms (emit pr serialPart 0 now sq os).2 = some ms' ∧
      mgrActs (mw v) (emit pr part v now sqv os).2 = some mv' ∧
      ms'.now = now ∧ mv'.now = now ∧
      RM pr part N lb (lb + L) ms' (emit pr serialPart 0 now sq os).1 (upd mw v mv') ∧
      (∀ l, part (pr.src l) = v → (emit pr part v now sqv os).1 l = (emit pr serialPart 0 now sq os).1 l) ∧
      (∀ l, part (pr.src l) ≠ v → (emit pr serialPart 0 now sq os).1 l = sq l) := by
  induction os with
  | nil =>
    intro ms sq sqv mw hR hns hnw hsq
    refine ⟨ms, mw v, rfl, rfl, hns, hnw, ?_, hsq, fun _ _ => rfl⟩
    have : upd mw v (mw v) = mw := by funext j; unfold upd; split <;> simp_all
    rw [this]; exact hR
  | cons o os ih =>
    intro ms sq sqv mw hR hns hnw hsq
    have ho := hsrc o (List.mem_cons_self ..)
    obtain ⟨ms1, mv1, h1, h2, h3, h4, h5⟩ := rm_send net hv hR hns hnw hlb o ho (hsq _ ho)
    obtain ⟨ms2, mv2, g1, g2, g3, g4, g5, g6, g7⟩ :=
      ih (fun o' h => hsrc o' (List.mem_cons_of_mem _ h)) (sqv := upd sqv o.port (sqv o.port + 1))
        h5 h3 (by rw [upd_same]; exact h4) (by
          intro l hl
          by_cases hlo : l = o.port
          · subst hlo; rw [upd_same, upd_same, hsq _ hl]
          · rw [upd_ne _ _ hlo, upd_ne _ _ hlo]; exact hsq l hl)
    refine ⟨ms2, mv2, ?_, ?_, g3, g4, ?_, ?_, ?_⟩
    · simp only [emit, serialPart, if_true, mgrActs, h1]
      exact g1
    · simp only [emit, mgrActs, h2]
      rw [upd_same] at g2
      exact g2
    · rw [upd_upd] at g5
      exact g5
    · intro l hl; simp only [emit]; exact g6 l hl
    · intro l hl
      simp only [emit]
      rw [g7 l hl, upd_ne]
      rintro rfl
      exact hl ho

end SST.Parallel
