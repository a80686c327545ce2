import Verif.Apps.TrafficProps
import Verif.Apps.Phased
set_option autoImplicit false
/-
The runs of the traffic skeleton end.
-/
namespace Verif.Apps.Traffic

/-- What is used of the parts. -/
structure Parts (nproc : Nat) (ps : List (Nat × Nat)) : Prop where
  agree : ∀ s r, (roles s ps).2 = some r ↔ s ∈ (roles r ps).1
  apart : ∀ r, (roles r ps).1 = [] ∨ (roles r ps).2 = none
  nodup : ∀ r, (roles r ps).1.Nodup
  small : ∀ s r, (roles s ps).2 = some r → s < nproc ∧ r < nproc

theorem parts (h : Nat → Nat → Nat) (nproc ns nr : Nat) (a b : Int) (ps : List (Nat × Nat))
    (e : setup h nproc ns nr a b = some ps) : Parts nproc ps := by
  obtain ⟨r1, r2, r3, _⟩ := C162_roles h nproc ns nr a b ps e
  obtain ⟨_, _, p3, _⟩ := C162_pairs h nproc ns nr a b ps e
  refine ⟨r1, r2, fun r => (r3 r).1, ?_⟩
  intro s r hs
  have := (r1 s r).1 hs
  rw [roles_fst] at this
  simp only [List.mem_map, List.mem_filter, beq_iff_eq] at this
  obtain ⟨p, ⟨hp, hpr⟩, hps⟩ := this
  have := p3 p hp
  rw [← hps, ← hpr]
  exact ⟨this.1, this.2.2.1⟩

theorem recv_count (l : List Nat) (hd : l.Nodup) (s : Nat) (t : Int) (tag n : Nat) :
    ((l.map fun x : Nat => Instr.irecv x tag n).filterMap (isRecv s t)).length = if s ∈ l ∧ t = tag then 1 else 0 := by
  induction l with
  | nil => simp
  | cons x l ih =>
    have hd' := List.nodup_cons.1 hd
    have := ih hd'.2
    have hc : ((List.map (fun x : Nat => Instr.irecv x tag n) (x :: l)).filterMap (isRecv s t)).length
        = (if x = s ∧ t = tag then 1 else 0) + ((l.map fun x : Nat => Instr.irecv x tag n).filterMap (isRecv s t)).length := by
      simp only [List.map_cons, List.filterMap_cons]
      by_cases hx : x = s ∧ t = tag
      · obtain ⟨rfl, rfl⟩ := hx
        simp [isRecv, Nat.add_comm]
      · have : ¬ ((x : Int) = (s : Int) ∧ (tag : Int) = t) := fun hh => hx ⟨by omega, hh.2.symm⟩
        have hn : isRecv (s : Int) t (Instr.irecv x tag n) = none := by simpa [isRecv] using this
        rw [hn, if_neg hx, Nat.zero_add]
    rw [hc, this]
    by_cases hx : x = s
    · subst hx
      simp [hd'.1]
    · have hx2 : ¬ s = x := fun h => hx h.symm
      simp [hx, hx2]

theorem win_recvs (w : Nat) (l : List Nat) (hd : l.Nodup) (s : Nat) (t : Int) (tag n : Nat) :
    (((List.range w).flatMap fun _ => l.map fun x : Nat => Instr.irecv x tag n).filterMap (isRecv s t)).length
      = if s ∈ l ∧ t = tag then w else 0 := by
  induction w with
  | zero => simp
  | succ w ih =>
    rw [List.range_succ, List.flatMap_append, List.filterMap_append, List.length_append, ih]
    simp only [List.flatMap_cons, List.flatMap_nil, List.append_nil, recv_count l hd]
    split <;> rfl

theorem win_sends (w : Nat) (q r : Nat) (t : Int) (tag n : Nat) :
    (((List.range w).map fun _ => Instr.isend q tag n).filterMap (isSend r t)).length = if q = r ∧ t = tag then w else 0 := by
  induction w with
  | zero => simp
  | succ w ih =>
    rw [List.range_succ, List.map_append, List.filterMap_append, List.length_append, ih]
    simp only [List.map_cons, List.map_nil, List.filterMap_cons, List.filterMap_nil, isSend]
    by_cases hq : q = r
    · subst hq
      by_cases ht : t = (tag : Int)
      · subst ht; simp
      · have : ¬ (tag : Int) = t := fun h => ht h.symm
        simp [ht, this]
    · have : ¬ ((q : Int) = (r : Int)) := by omega
      simp [hq, this]

theorem filterMap_none {β : Type} (f : Instr → Option β) (l : List Instr) (h : ∀ c ∈ l, f c = none) : l.filterMap f = [] := by
  induction l with
  | nil => rfl
  | cons a l ih => simp [List.filterMap_cons, h a (by simp), ih (fun c hc => h c (by simp [hc]))]

/-- In each step the receives of a rank from another are as many as the sends of that one to it. -/
theorem step_match (nproc : Nat) (ps : List (Nat × Nat)) (H : Parts nproc ps) (r s : Nat) (t : Int) (ev : Ev) :
    (recvs (calls nproc ps r ev) s t).length = (sends (calls nproc ps s ev) r t).length := by
  cases ev with
  | all k => rfl
  | win tag w n =>
    simp only [calls, recvs, sends, List.filterMap_append, List.length_append, Int.toNat_natCast]
    have z1 : ([Instr.waitall].filterMap (isRecv (s : Int) t)).length = 0 := rfl
    have z2 : ([Instr.waitall].filterMap (isSend (r : Int) t)).length = 0 := rfl
    rw [z1, z2]
    have hrec : (((match (roles r ps).2 with
        | some q => (List.range w).map fun _ => Instr.isend q tag n
        | none => (List.range w).flatMap fun _ => (roles r ps).1.map fun s : Nat => Instr.irecv s tag n)).filterMap (isRecv s t)).length
        = if s ∈ (roles r ps).1 ∧ t = tag then w else 0 := by
      cases hr : (roles r ps).2 with
      | none => exact win_recvs w _ (H.nodup r) s t tag n
      | some q =>
        have he : (roles r ps).1 = [] := by
          rcases H.apart r with h | h
          · exact h
          · rw [h] at hr; cases hr
        rw [he]
        simp only [List.not_mem_nil, false_and, if_false]
        rw [filterMap_none]
        · rfl
        · intro c hc
          obtain ⟨_, _, rfl⟩ := List.mem_map.1 hc
          rfl
    have hsnd : (((match (roles s ps).2 with
        | some q => (List.range w).map fun _ => Instr.isend q tag n
        | none => (List.range w).flatMap fun _ => (roles s ps).1.map fun s : Nat => Instr.irecv s tag n)).filterMap (isSend r t)).length
        = if (roles s ps).2 = some r ∧ t = tag then w else 0 := by
      cases hr : (roles s ps).2 with
      | some q =>
        rw [win_sends]
        simp
      | none =>
        rw [filterMap_none]
        · simp
        · intro c hc
          obtain ⟨_, _, hc⟩ := List.mem_flatMap.1 hc
          obtain ⟨_, _, rfl⟩ := List.mem_map.1 hc
          rfl
    have hm : (if s ∈ (roles r ps).1 ∧ t = tag then w else 0) = if (roles s ps).2 = some r ∧ t = tag then w else 0 := by
      simp only [H.agree s r]
    exact hrec.trans (hm.trans hsnd.symm)
  | ack j =>
    simp only [calls, recvs, sends, List.filterMap_append, List.length_append, Int.toNat_natCast]
    have z1 : ([Instr.waitall].filterMap (isRecv (s : Int) t)).length = 0 := rfl
    have z2 : ([Instr.waitall].filterMap (isSend (r : Int) t)).length = 0 := rfl
    rw [z1, z2]
    have hrec : (((match (roles r ps).2 with
        | some q => if (roles q ps).1[j]? = some r then [Instr.irecv q 42 1] else []
        | none => ((roles r ps).1[j]?).toList.map fun s : Nat => Instr.isend s 42 1)).filterMap (isRecv s t)).length
        = if (roles s ps).1[j]? = some r ∧ t = 42 then 1 else 0 := by
      cases hr : (roles r ps).2 with
      | none =>
        rw [filterMap_none]
        · rw [if_neg]
          · rfl
          · rintro ⟨hj, _⟩
            have := (H.agree r s).2 (List.mem_of_getElem? hj)
            rw [hr] at this; cases this
        · intro c hc
          obtain ⟨_, _, rfl⟩ := List.mem_map.1 hc
          rfl
      | some q =>
        dsimp only
        by_cases hq : q = s
        · subst hq
          by_cases hj : (roles q ps).1[j]? = some r
          · by_cases ht : t = 42
            · subst ht; simp [hj, isRecv]
            · have : ¬ 42 = t := fun h => ht h.symm
              simp [hj, ht, isRecv, this]
          · simp [hj]
        · have hne : ¬ ((q : Int) = (s : Int)) := by omega
          have hneg : ¬ ((roles s ps).1[j]? = some r ∧ t = 42) := by
            rintro ⟨hj, _⟩
            have := (H.agree r s).2 (List.mem_of_getElem? hj)
            rw [hr] at this
            exact hq (by simpa using this)
          rw [if_neg hneg]
          split
          · simp [isRecv, hne]
          · rfl
    have hsnd : (((match (roles s ps).2 with
        | some q => if (roles q ps).1[j]? = some s then [Instr.irecv q 42 1] else []
        | none => ((roles s ps).1[j]?).toList.map fun s : Nat => Instr.isend s 42 1)).filterMap (isSend r t)).length
        = if (roles s ps).1[j]? = some r ∧ t = 42 then 1 else 0 := by
      cases hr : (roles s ps).2 with
      | some q =>
        have he : (roles s ps).1 = [] := by
          rcases H.apart s with h | h
          · exact h
          · rw [h] at hr; cases hr
        dsimp only
        rw [he]
        split
        · simp [isSend]
        · simp
      | none =>
        dsimp only
        cases hj : (roles s ps).1[j]? with
        | none => simp
        | some x =>
          by_cases hx : x = r
          · subst hx
            by_cases ht : t = 42
            · subst ht; simp [isSend]
            · have : ¬ 42 = t := fun h => ht h.symm
              simp [isSend, ht, this]
          · have : ¬ ((x : Int) = (r : Int)) := by omega
            simp [isSend, this, hx]
    exact hrec.trans hsnd.symm

/-- **Runs end**: whatever sends are eager and in whatever order ranks run, all ranks come to the last
barrier. -/
theorem C162_ends (h : Nat → Nat → Nat) (nproc ns nr : Nat) (a b : Int) (warm nrepeat : Nat) (sizes : List (Nat × Nat × Nat)) (W : World)
    (e : app h nproc ns nr a b warm nrepeat sizes = some W) (eager : Int → Prop) : Completes W eager := by
  unfold app at e
  split at e
  · cases e
  simp only [Option.map_eq_some_iff] at e
  obtain ⟨ps, hps, rfl⟩ := e
  have H := parts h nproc ns nr a b ps hps
  generalize run (ns / nr) warm nrepeat sizes = evs
  have get : ∀ (r : Int) (i : Nat) x, (evs.map (calls nproc ps r))[i]? = some x → ∃ ev, evs[i]? = some ev ∧ calls nproc ps r ev = x := by
    intro r i x hx
    rw [List.getElem?_map] at hx
    cases hk : evs[i]? with
    | none => rw [hk] at hx; simp at hx
    | some k => rw [hk] at hx; exact ⟨k, rfl, by simpa using hx⟩
  have nat : ∀ r : Int, 0 ≤ r → ∃ k : Nat, r = k := fun r hr => ⟨r.toNat, by omega⟩
  refine phased_completes (fun r => evs.map (calls nproc ps r)) ?_ (fun _ _ _ _ => by simp) ?_ ?_ ?_ ?_ ?_ eager
  · intro r hr
    simp only [World.Has] at hr
    simp only [hr, and_self, if_true]
  · intro r _ x hx
    obtain ⟨ev, _, rfl⟩ := List.mem_map.1 hx
    cases ev with
    | all k => exact .coll _ _ _
    | win tag w n =>
      refine .exchange _ fun c hc => ?_
      split at hc
      · obtain ⟨_, _, rfl⟩ := List.mem_map.1 hc
        trivial
      · obtain ⟨_, _, hc⟩ := List.mem_flatMap.1 hc
        obtain ⟨_, _, rfl⟩ := List.mem_map.1 hc
        trivial
    | ack j =>
      refine .exchange _ fun c hc => ?_
      split at hc
      · split at hc
        · simp only [List.mem_singleton] at hc; subst hc; trivial
        · simp at hc
      · obtain ⟨_, _, rfl⟩ := List.mem_map.1 hc
        trivial
  · intro r hr i hi
    simp only [World.Has] at hr ⊢
    simp only [hr, and_self, if_true, List.mem_flatten] at hi
    obtain ⟨x, hx, hi⟩ := hi
    obtain ⟨ev, _, rfl⟩ := List.mem_map.1 hx
    have hs1 : ∀ q, (roles r.toNat ps).2 = some q → (0 : Int) ≤ q ∧ (q : Int) < nproc := fun q hq => by
      have := (H.small _ _ hq).2; omega
    have hs2 : ∀ s, s ∈ (roles r.toNat ps).1 → (0 : Int) ≤ s ∧ (s : Int) < nproc := fun s hs => by
      have := (H.small _ _ ((H.agree _ _).2 hs)).1; omega
    cases ev with
    | all k =>
      simp only [calls, List.mem_singleton] at hi
      subst hi
      exact ⟨fun d t n hh => by simp at hh, fun d t n hh => by simp at hh⟩
    | win tag w n =>
      simp only [calls, List.mem_append, List.mem_singleton] at hi
      rcases hi with hi | rfl
      · split at hi
        · rename_i q hq
          obtain ⟨_, _, rfl⟩ := List.mem_map.1 hi
          refine ⟨fun d t n hh => ?_, fun d t n hh => by simp at hh⟩
          simp only [Instr.isend.injEq, reduceCtorEq, or_false] at hh
          rw [← hh.1]; exact hs1 q hq
        · obtain ⟨_, _, hi⟩ := List.mem_flatMap.1 hi
          obtain ⟨s, hs, rfl⟩ := List.mem_map.1 hi
          refine ⟨fun d t n hh => by simp at hh, fun d t n hh => ?_⟩
          simp only [Instr.irecv.injEq, reduceCtorEq, or_false] at hh
          rw [← hh.1]; exact hs2 s hs
      · exact ⟨fun d t n hh => by simp at hh, fun d t n hh => by simp at hh⟩
    | ack j =>
      simp only [calls, List.mem_append, List.mem_singleton] at hi
      rcases hi with hi | rfl
      · split at hi
        · rename_i q hq
          split at hi
          · simp only [List.mem_singleton] at hi
            subst hi
            refine ⟨fun d t n hh => by simp at hh, fun d t n hh => ?_⟩
            simp only [Instr.irecv.injEq, reduceCtorEq, or_false] at hh
            rw [← hh.1]; exact hs1 q hq
          · simp at hi
        · obtain ⟨s, hs, rfl⟩ := List.mem_map.1 hi
          refine ⟨fun d t n hh => ?_, fun d t n hh => by simp at hh⟩
          simp only [Instr.isend.injEq, reduceCtorEq, or_false] at hh
          rw [← hh.1]
          exact hs2 s (List.mem_of_getElem? (Option.mem_toList.1 hs))
      · exact ⟨fun d t n hh => by simp at hh, fun d t n hh => by simp at hh⟩
  · intro r s t hr hs i x y hx hy
    obtain ⟨u, hu, rfl⟩ := get r i x hx
    obtain ⟨v, hv, rfl⟩ := get s i y hy
    rw [hu] at hv
    simp only [Option.some.injEq] at hv
    subst hv
    obtain ⟨r', rfl⟩ := nat r hr.1
    obtain ⟨s', rfl⟩ := nat s hs.1
    exact step_match nproc ps H r' s' t u
  · intro r s ms hr hs i x y hx hy
    obtain ⟨u, hu, rfl⟩ := get r i x hx
    obtain ⟨v, hv, rfl⟩ := get s i y hy
    rw [hu] at hv
    simp only [Option.some.injEq] at hv
    subst hv
    cases u with
    | all k => rfl
    | win tag w n =>
      have : ∀ r, colls (calls nproc ps r (.win tag w n)) ms = [] := by
        intro r
        refine filterMap_none _ _ fun c hc => ?_
        simp only [calls, List.mem_append, List.mem_singleton] at hc
        rcases hc with hc | rfl
        · split at hc
          · obtain ⟨_, _, rfl⟩ := List.mem_map.1 hc; rfl
          · obtain ⟨_, _, hc⟩ := List.mem_flatMap.1 hc
            obtain ⟨_, _, rfl⟩ := List.mem_map.1 hc; rfl
        · rfl
      rw [this, this]
    | ack j =>
      have : ∀ r, colls (calls nproc ps r (.ack j)) ms = [] := by
        intro r
        refine filterMap_none _ _ fun c hc => ?_
        simp only [calls, List.mem_append, List.mem_singleton] at hc
        rcases hc with hc | rfl
        · split at hc
          · split at hc
            · simp only [List.mem_singleton] at hc; subst hc; rfl
            · simp at hc
          · obtain ⟨_, _, rfl⟩ := List.mem_map.1 hc; rfl
        · rfl
      rw [this, this]
  · intro r hr ms k n hc q hq
    simp only [World.Has] at hr ⊢
    simp only [hr, and_self, if_true, List.mem_flatten] at hc
    obtain ⟨x, hx, hc⟩ := hc
    obtain ⟨ev, _, rfl⟩ := List.mem_map.1 hx
    cases ev with
    | all k =>
      simp only [calls, List.mem_singleton, Instr.coll.injEq] at hc
      rw [hc.1] at hq
      obtain ⟨i, hi, rfl⟩ := List.mem_map.1 hq
      have := List.mem_range.1 hi
      omega
    | win tag w n =>
      simp only [calls, List.mem_append, List.mem_singleton, reduceCtorEq, or_false] at hc
      split at hc
      · obtain ⟨_, _, hc⟩ := List.mem_map.1 hc; cases hc
      · obtain ⟨_, _, hc⟩ := List.mem_flatMap.1 hc
        obtain ⟨_, _, hc⟩ := List.mem_map.1 hc; cases hc
    | ack j =>
      simp only [calls, List.mem_append, List.mem_singleton, reduceCtorEq, or_false] at hc
      split at hc
      · split at hc <;> simp at hc
      · obtain ⟨_, _, hc⟩ := List.mem_map.1 hc; cases hc

theorem flat_length {β : Type} (g : Instr → Option β) (f : Ev → List Instr) (evs : List Ev) :
    ((evs.map f).flatten.filterMap g).length = (evs.map fun ev => ((f ev).filterMap g).length).sum := by
  induction evs with
  | nil => rfl
  | cons e l ih =>
    rw [List.map_cons, List.flatten_cons, List.filterMap_append, List.length_append, ih, List.map_cons, List.sum_cons]

theorem sum_index (l : List Nat) (s : Nat) :
    ((List.range l.length).map fun j => if l[j]? = some s then 1 else 0).sum = l.count s := by
  induction l with
  | nil => rfl
  | cons x l ih =>
    rw [List.length_cons, List.range_succ_eq_map, List.map_cons, List.sum_cons, List.map_map, List.count_cons, ← ih, Nat.add_comm]
    congr 1
    by_cases hx : x = s <;> simp [hx]

theorem sum_zero {α : Type} (l : List α) (f : α → Nat) (h : ∀ a ∈ l, f a = 0) : (l.map f).sum = 0 := by
  induction l with
  | nil => rfl
  | cons a l ih => simp [h a (by simp), ih (fun x hx => h x (by simp [hx]))]

theorem sum_windows (niter m w t : Nat) :
    ((List.range niter).map fun i => m * (if t = i then w else 0)).sum = if t < niter then m * w else 0 := by
  induction niter with
  | zero => rfl
  | succ k ih =>
    rw [List.range_succ, List.map_append, List.sum_append, ih]
    simp only [List.map_cons, List.map_nil, List.sum_cons, List.sum_nil]
    by_cases h1 : t < k
    · simp [h1, Nat.lt_succ_of_lt h1, Nat.ne_of_lt h1]
    · by_cases h2 : t = k
      · subst h2; simp
      · have : ¬ t < k + 1 := by omega
        simp [h1, h2, this]

/-- **One exchange of traffic**: a sender sends in each round the number of messages asked for, none to
others, and gets one acknowledgement from its receiver. -/
theorem C162_traffic (h : Nat → Nat → Nat) (nproc ns nr : Nat) (a b : Int) (ps : List (Nat × Nat)) (e : setup h nproc ns nr a b = some ps)
    (niter num w n : Nat) (hw : num % w = 0) (s r : Nat) (hp : (s, r) ∈ ps) :
    (∀ q t : Nat, (sends ((traffic (ns / nr) niter num w n).map (calls nproc ps s)).flatten q t).length = if q = r ∧ t < niter then num else 0) ∧
    (recvs ((traffic (ns / nr) niter num w n).map (calls nproc ps s)).flatten r 42).length = 1 := by
  have H := parts h nproc ns nr a b ps e
  obtain ⟨_, _, r3, _⟩ := C162_roles h nproc ns nr a b ps e
  obtain ⟨hnr, hm, _⟩ := setup_spec h nproc ns nr a b ps e
  have hmem : s ∈ (roles r ps).1 := by
    rw [roles_fst]
    simp only [List.mem_map, List.mem_filter, beq_iff_eq]
    exact ⟨(s, r), ⟨hp, rfl⟩, rfl⟩
  have hs := (H.agree s r).2 hmem
  have hd : num / w * w = num := Nat.div_mul_cancel (Nat.dvd_of_mod_eq_zero hw)
  have hk : ns / nr = (roles r ps).1.length := by
    have h1 := (r3 r).2 (List.ne_nil_of_mem hmem)
    rw [← h1]
    exact Nat.mul_div_cancel _ (by omega)
  constructor
  · intro q t
    rw [sends, flat_length, traffic, List.map_append, List.sum_append, List.map_map, sum_zero (List.range _), Nat.add_zero]
    · have hwin : ∀ i, ((calls nproc ps s (.win i w n)).filterMap (isSend (q : Int) (t : Int))).length
          = if q = r ∧ t = i then w else 0 := by
        intro i
        simp only [calls, Int.toNat_natCast, hs, List.filterMap_append, List.length_append]
        have := win_sends w r q t i n
        rw [this]
        have z : ([Instr.waitall].filterMap (isSend (q : Int) t)).length = 0 := rfl
        rw [z, Nat.add_zero]
        by_cases hq : q = r
        · subst hq; simp [Int.natCast_inj]
        · simp [hq, Ne.symm hq]
      have hsum : ((((List.range niter).flatMap fun i => (List.range (num / w)).map fun _ => Ev.win i w n)).map
          fun ev => ((calls nproc ps s ev).filterMap (isSend (q : Int) (t : Int))).length).sum
          = ((List.range niter).map fun i => num / w * (if q = r ∧ t = i then w else 0)).sum := by
        generalize List.range niter = l
        induction l with
        | nil => rfl
        | cons i l ih =>
          rw [List.flatMap_cons, List.map_append, List.sum_append, ih, List.map_cons, List.sum_cons, List.map_map]
          congr 1
          have : ((fun ev => ((calls nproc ps s ev).filterMap (isSend (q : Int) (t : Int))).length) ∘ fun _ : Nat => Ev.win i w n)
              = fun _ => if q = r ∧ t = i then w else 0 := by
            funext _; exact hwin i
          rw [this]
          simp [List.map_const', List.sum_replicate_nat]
      rw [hsum]
      by_cases hq : q = r
      · simp only [hq, true_and]
        rw [sum_windows, hd]
      · simp only [hq, false_and, if_false]
        exact sum_zero _ _ fun _ _ => rfl
    · intro j _
      simp only [Function.comp, calls, Int.toNat_natCast, hs]
      rw [filterMap_none]
      · rfl
      · intro c hc
        simp only [List.mem_append, List.mem_singleton] at hc
        rcases hc with hc | rfl
        · split at hc
          · simp only [List.mem_singleton] at hc; subst hc; rfl
          · simp at hc
        · rfl
  · rw [recvs, flat_length, traffic, List.map_append, List.sum_append, List.map_map, sum_zero (List.flatMap _ _), Nat.zero_add]
    · have : ((fun ev => ((calls nproc ps s ev).filterMap (isRecv (r : Int) 42)).length) ∘ Ev.ack)
          = fun j => if (roles r ps).1[j]? = some s then 1 else 0 := by
        funext j
        simp only [Function.comp, calls, Int.toNat_natCast, hs]
        by_cases hj : (roles r ps).1[j]? = some s
        · simp [hj, isRecv]
        · simp [hj, isRecv]
      rw [this, hk, sum_index]
      rw [List.Nodup.count (r3 r).1, if_pos hmem]
    · intro ev hev
      obtain ⟨i, _, hev⟩ := List.mem_flatMap.1 hev
      obtain ⟨_, _, rfl⟩ := List.mem_map.1 hev
      simp only [calls, Int.toNat_natCast, hs]
      rw [filterMap_none]
      · rfl
      · intro c hc
        simp only [List.mem_append, List.mem_singleton] at hc
        rcases hc with hc | rfl
        · obtain ⟨_, _, rfl⟩ := List.mem_map.1 hc; rfl
        · rfl

theorem colls_none (nproc : Nat) (ps : List (Nat × Nat)) (r : Int) (ms : List Int) (ev : Ev) (h : ∀ k, ev ≠ .all k) :
    (calls nproc ps r ev).filterMap (isColl ms) = [] := by
  refine filterMap_none _ _ fun c hc => ?_
  cases ev with
  | all k => exact absurd rfl (h k)
  | win tag w n =>
    simp only [calls, List.mem_append, List.mem_singleton] at hc
    rcases hc with hc | rfl
    · split at hc
      · obtain ⟨_, _, rfl⟩ := List.mem_map.1 hc; rfl
      · obtain ⟨_, _, hc⟩ := List.mem_flatMap.1 hc
        obtain ⟨_, _, rfl⟩ := List.mem_map.1 hc; rfl
    · rfl
  | ack j =>
    simp only [calls, List.mem_append, List.mem_singleton] at hc
    rcases hc with hc | rfl
    · split at hc
      · split at hc
        · simp only [List.mem_singleton] at hc; subst hc; rfl
        · simp at hc
      · obtain ⟨_, _, rfl⟩ := List.mem_map.1 hc; rfl
    · rfl

theorem traffic_colls (nproc : Nat) (ps : List (Nat × Nat)) (r : Int) (ms : List Int) (k niter num w n : Nat) :
    (((traffic k niter num w n).map (calls nproc ps r)).flatten).filterMap (isColl ms) = [] := by
  refine filterMap_none _ _ fun c hc => ?_
  obtain ⟨x, hx, hc⟩ := List.mem_flatten.1 hc
  obtain ⟨ev, hev, rfl⟩ := List.mem_map.1 hx
  have hne : ∀ k, ev ≠ .all k := by
    intro k' he
    subst he
    simp only [traffic, List.mem_append, List.mem_flatMap, List.mem_map, reduceCtorEq, and_false, exists_false, or_self] at hev
  have := colls_none nproc ps r ms ev hne
  cases hcc : isColl ms c with
  | none => rfl
  | some v =>
    have : v ∈ (calls nproc ps r ev).filterMap (isColl ms) := List.mem_filterMap.2 ⟨c, hc, hcc⟩
    rw [colls_none nproc ps r ms ev hne] at this
    simp at this

/-- **The whole run**: windows divide the numbers of messages; each rank comes to a barrier, to the split, to
one barrier after each size and to the last one; a sender sends to its receiver, with the tag of each round,
the messages of all sizes, with tag 0 also those of the warm-up, and sends nothing else. -/
theorem C162_run (h : Nat → Nat → Nat) (nproc ns nr : Nat) (a b : Int) (warm nrepeat : Nat) (sizes : List (Nat × Nat × Nat)) (W : World)
    (e : app h nproc ns nr a b warm nrepeat sizes = some W) :
    (∀ x ∈ sizes, 0 < x.2.2 ∧ x.2.2 ∣ x.2.1) ∧
    (∀ r : Nat, r < nproc → colls (W.prog r) ((List.range nproc).map (fun i : Nat => (i : Int))) =
      [(0, 0), (1, 0)] ++ List.replicate (sizes.length + 1) (0, 0)) ∧
    ∃ ps, setup h nproc ns nr a b = some ps ∧ ∀ s r, (s, r) ∈ ps → ∀ q t : Nat,
      (sends (W.prog s) q t).length =
        if q = r then (sizes.map fun x => (if t = 0 then warm else 0) + if t < nrepeat then x.2.1 else 0).sum else 0 := by
  unfold app at e
  split at e
  · cases e
  rename_i hany
  have hdiv : ∀ x ∈ sizes, 0 < x.2.2 ∧ x.2.2 ∣ x.2.1 := by
    intro x hx
    have : ¬ (x.2.2 == 0 || x.2.1 % x.2.2 != 0) = true := fun hh => hany (List.any_eq_true.2 ⟨x, hx, hh⟩)
    simp only [Bool.or_eq_true, beq_iff_eq, bne_iff_ne, ne_eq, not_or, Decidable.not_not] at this
    exact ⟨by omega, Nat.dvd_of_mod_eq_zero this.2⟩
  simp only [Option.map_eq_some_iff] at e
  obtain ⟨ps, hps, rfl⟩ := e
  refine ⟨hdiv, ?_, ps, hps, ?_⟩
  · intro r hr
    have hr' : (0 : Int) ≤ r ∧ (r : Int) < nproc := by omega
    simp only [hr', and_self, if_true]
    have one : ∀ k, (calls nproc ps r (.all k)).filterMap (isColl ((List.range nproc).map (fun i : Nat => (i : Int)))) = [(k, 0)] := by
      intro k; simp [calls, isColl]
    have mid : (((sizes.flatMap fun x => traffic (ns / nr) 1 warm warm x.1 ++ traffic (ns / nr) nrepeat x.2.1 x.2.2 x.1 ++ [.all 0]).map
        (calls nproc ps r)).flatten).filterMap (isColl ((List.range nproc).map (fun i : Nat => (i : Int)))) = List.replicate sizes.length (0, 0) := by
      clear hdiv hany
      induction sizes with
      | nil => rfl
      | cons x l ih =>
        rw [List.flatMap_cons, List.map_append, List.flatten_append, List.filterMap_append, ih]
        simp only [List.map_append, List.flatten_append, List.filterMap_append, traffic_colls, List.nil_append, List.map_cons, List.map_nil,
          List.flatten_cons, List.flatten_nil, List.append_nil, one]
        rfl
    unfold colls run
    simp only [List.map_append, List.flatten_append, List.filterMap_append, mid, List.map_cons, List.map_nil,
          List.flatten_cons, List.flatten_nil, List.append_nil, one]
    rw [List.replicate_succ', List.append_assoc]
    rfl
  · intro s r hp q t
    have hlt : s < nproc := by
      obtain ⟨_, _, p3, _⟩ := C162_pairs h nproc ns nr a b ps hps
      exact (p3 _ hp).1
    have hs' : (0 : Int) ≤ s ∧ (s : Int) < nproc := by omega
    simp only [hs', and_self, if_true]
    have one : ∀ k, (calls nproc ps s (.all k)).filterMap (isSend (q : Int) (t : Int)) = [] := fun _ => rfl
    have mid : ((((sizes.flatMap fun x => traffic (ns / nr) 1 warm warm x.1 ++ traffic (ns / nr) nrepeat x.2.1 x.2.2 x.1 ++ [.all 0]).map
        (calls nproc ps s)).flatten).filterMap (isSend (q : Int) (t : Int))).length =
        if q = r then (sizes.map fun x => (if t = 0 then warm else 0) + if t < nrepeat then x.2.1 else 0).sum else 0 := by
      clear hany
      induction sizes with
      | nil => simp
      | cons x l ih =>
        have h1 := (C162_traffic h nproc ns nr a b ps hps 1 warm warm x.1 (Nat.mod_self _) s r hp).1 q t
        have h2 := (C162_traffic h nproc ns nr a b ps hps nrepeat x.2.1 x.2.2 x.1
          (Nat.mod_eq_zero_of_dvd (hdiv x (by simp)).2) s r hp).1 q t
        unfold sends at h1 h2
        rw [List.flatMap_cons, List.map_append, List.flatten_append, List.filterMap_append, List.length_append,
          ih (fun y hy => hdiv y (by simp [hy]))]
        simp only [List.map_append, List.flatten_append, List.filterMap_append, List.length_append, h1, h2, List.map_cons, List.map_nil,
          List.flatten_cons, List.flatten_nil, List.append_nil, one, List.length_nil, List.sum_cons, Nat.lt_one_iff]
        by_cases hq : q = r <;> simp [hq]
    unfold sends run
    simp only [List.map_append, List.flatten_append, List.filterMap_append, List.length_append, mid, List.map_cons, List.map_nil,
          List.flatten_cons, List.flatten_nil, List.append_nil, one, List.length_nil, Nat.zero_add, Nat.add_zero]

/-- Twelve ranks with two sizes: the messages of the second round from rank 0 to 3 and from 10 to 3,
and two acknowledgements of each size. -/
example : ∃ W, app (fun k x => (x * (5 + 3 * k)) % 13) 12 4 2 1 1 10 2 [(256, 4, 2), (512, 2, 1)] = some W ∧
    sends (W.prog 0) 3 1 = [256, 256, 256, 256, 512, 512] ∧ recvs (W.prog 3) 10 1 = [256, 256, 256, 256, 512, 512] ∧
    recvs (W.prog 0) 3 42 = [1, 1, 1, 1] ∧ sends (W.prog 3) 10 42 = [1, 1, 1, 1] ∧ sends (W.prog 1) 0 42 = [] :=
  ⟨_, rfl, by decide +kernel, by decide +kernel, by decide +kernel, by decide +kernel, by decide +kernel⟩

end Verif.Apps.Traffic
