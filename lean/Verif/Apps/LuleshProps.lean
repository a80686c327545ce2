import Verif.Apps.LuleshBuf
import Verif.Apps.Phased
set_option autoImplicit false
/-
C158: the messages of a run of LULESH, and its end.
-/
namespace Verif.Apps.Lulesh

theorem sends_map_recv (tp : Int) (x : Exchange) (r s t : Int) : sends (commRecv tp x r) s t = [] := by
  unfold sends commRecv
  rw [List.filterMap_eq_nil_iff]
  intro i hi
  obtain ⟨e, _, rfl⟩ := List.mem_map.1 hi
  rfl

theorem recvs_map_send (tp : Int) (x : Exchange) (r s t : Int) : recvs (commSend tp x r) s t = [] := by
  unfold recvs commSend
  rw [List.filterMap_eq_nil_iff]
  intro i hi
  obtain ⟨e, _, rfl⟩ := List.mem_map.1 hi
  rfl

theorem sends_tag {tp : Int} {x : Exchange} {r s t : Int} (h : t ≠ x.tag) : sends (commSend tp x r) s t = [] := by
  unfold sends commSend
  rw [List.filterMap_eq_nil_iff]
  intro i hi
  obtain ⟨e, _, rfl⟩ := List.mem_map.1 hi
  exact if_neg fun hh => h hh.2.symm

theorem recvs_tag {tp : Int} {x : Exchange} {r s t : Int} (h : t ≠ x.tag) : recvs (commRecv tp x r) s t = [] := by
  unfold recvs commRecv
  rw [List.filterMap_eq_nil_iff]
  intro i hi
  obtain ⟨e, _, rfl⟩ := List.mem_map.1 hi
  exact if_neg fun hh => h hh.2.symm

theorem sends_exchange (tp : Int) (x : Exchange) (r s t : Int) : sends (exchange tp x r) s t = sends (commSend tp x r) s t := by
  have h := sends_map_recv tp x r s t
  unfold sends exchange at *
  rw [List.filterMap_append, List.filterMap_append, h, List.filterMap_cons]
  simp [isSend]

theorem recvs_exchange (tp : Int) (x : Exchange) (r s t : Int) : recvs (exchange tp x r) s t = recvs (commRecv tp x r) s t := by
  have h := recvs_map_send tp x r s t
  unfold recvs exchange at *
  rw [List.filterMap_append, List.filterMap_append, List.filterMap_cons]
  simp only [isRecv]
  rw [h]
  simp [isRecv]

theorem colls_exchange (tp : Int) (x : Exchange) (r : Int) (ms : List Int) : colls (exchange tp x r) ms = [] := by
  unfold colls exchange
  rw [List.filterMap_eq_nil_iff]
  intro i hi
  simp only [List.mem_append, List.mem_cons, commRecv, commSend, List.mem_map, List.not_mem_nil, or_false] at hi
  rcases hi with (⟨e, _, rfl⟩ | rfl | ⟨e, _, rfl⟩) | rfl <;> rfl

/-- A part of a program. -/
inductive Kind
  | ex (x : Exchange)
  | coll (k : Nat) (n : Int)

/-- The calls of a part. -/
def Kind.calls (tp r : Int) : Kind → List Instr
  | .ex x => exchange tp x r
  | .coll k n => [.coll (world (tp * tp * tp)) k n]

/-- The parts of a step. -/
def stepKinds (nx k : Nat) : List Kind :=
  (if k = 0 then [] else [.coll 1 1]) ++ [.ex (forceX nx), .ex (posVelX nx)] ++ (if nx * nx * nx = 0 then [] else [.ex (monoQX nx)])

/-- The parts of a program. -/
def kinds (nx its : Nat) : List Kind := [.ex (massX nx), .coll 0 0] ++ (List.range its).flatMap (stepKinds nx) ++ [.coll 2 1]

theorem cycle_eq (tp : Int) (nx : Nat) (r : Int) (k : Nat) : cycle tp nx r k = (stepKinds nx k).map (Kind.calls tp r) := by
  unfold cycle stepKinds
  by_cases h1 : k = 0 <;> by_cases h2 : nx * nx * nx = 0 <;> simp [h1, h2, Kind.calls]

theorem blocks_eq (tp : Int) (nx its : Nat) (r : Int) : blocks tp nx its r = (kinds nx its).map (Kind.calls tp r) := by
  unfold blocks kinds
  have h : cycle tp nx r = fun k => (stepKinds nx k).map (Kind.calls tp r) := funext fun k => cycle_eq tp nx r k
  rw [h]
  simp [Kind.calls, List.map_flatMap]

theorem app_some {n root : Int} {nx its : Nat} {W : World} (h : app n root nx its = some W) :
    root * root * root = n ∧ W.size = n ∧ ∀ r, W.Has r → W.prog r = ((kinds nx its).map (Kind.calls root r)).flatten := by
  unfold app at h
  split at h
  · exact nomatch h
  · rename_i hn
    simp only [Decidable.not_not] at hn
    simp only [Option.some.injEq] at h
    subst h
    refine ⟨hn, rfl, fun r hr => ?_⟩
    show (if 0 ≤ r ∧ r < n then _ else _) = _
    have hr' : 0 ≤ r ∧ r < n := hr
    rw [if_pos hr', blocks_eq]

theorem root_pos {tp r : Int} (h0 : 0 ≤ r) (h1 : r < tp * tp * tp) : 0 < tp := by
  apply Decidable.byContradiction
  intro hn
  have a : 0 ≤ tp * tp := Int.mul_nonneg_of_nonpos_of_nonpos (by omega) (by omega)
  have b : tp * tp * tp ≤ 0 := Int.mul_nonpos_of_nonneg_of_nonpos a (by omega)
  omega

theorem has_located {n root : Int} {nx its : Nat} {W : World} (h : app n root nx its = some W) {r : Int} (hr : W.Has r) :
    Located root r (pos root r) := by
  obtain ⟨hn, hs, _⟩ := app_some h
  obtain ⟨h0, h1⟩ := hr
  rw [hs, ← hn] at h1
  exact C158_position (root_pos h0 h1) h0 h1

/-- The messages from one rank to another in a part. -/
def Kind.owed (root r s t : Int) : Kind → List Int
  | .ex x => if t = x.tag then wanted x (pos root r) (pos root s) else []
  | .coll _ _ => []

theorem sends_kind {root r s t : Int} (hr : Located root r (pos root r)) (hs : Located root s (pos root s)) (k : Kind) :
    sends (k.calls root r) s t = k.owed root r s t := by
  cases k with
  | coll k n => rfl
  | ex x =>
    show sends (exchange root x r) s t = _
    rw [sends_exchange]
    show _ = if t = x.tag then wanted x (pos root r) (pos root s) else []
    split
    · rename_i h; rw [h]; exact C158_sends hr hs
    · rename_i h; exact sends_tag h

theorem recvs_kind {root r s t : Int} (hr : Located root r (pos root r)) (hs : Located root s (pos root s)) (k : Kind) :
    recvs (k.calls root s) r t = k.owed root r s t := by
  cases k with
  | coll k n => rfl
  | ex x =>
    show recvs (exchange root x s) r t = _
    rw [recvs_exchange]
    show _ = if t = x.tag then wanted x (pos root r) (pos root s) else []
    split
    · rename_i h; rw [h]; exact C158_recvs hr hs
    · rename_i h; exact recvs_tag h

theorem filterMap_flatten {α β γ : Type} (f : α → Option β) (g : γ → List α) (h : γ → List β) (hh : ∀ c, (g c).filterMap f = h c) (l : List γ) :
    ((l.map g).flatten).filterMap f = l.flatMap h := by
  induction l with
  | nil => rfl
  | cons c l ih => rw [List.map_cons, List.flatten_cons, List.filterMap_append, hh, ih, List.flatMap_cons]

/-- The exchange of a part. -/
def Kind.ex? : Kind → Option Exchange
  | .ex x => some x
  | .coll _ _ => none

/-- The collective of a part. -/
def Kind.coll? : Kind → Option (Nat × Int)
  | .ex _ => none
  | .coll k n => some (k, n)

theorem filterMap_flatMap_const {α : Type} (f : Kind → Option α) (g : Nat → List Kind) (l : List α) (its : Nat) (h : ∀ k, (g k).filterMap f = l) :
    ((List.range its).flatMap g).filterMap f = (List.replicate its l).flatten := by
  induction its with
  | zero => rfl
  | succ n ih =>
    rw [List.range_succ, List.flatMap_append, List.filterMap_append, ih, List.flatMap_cons, List.flatMap_nil, List.append_nil, h,
      List.replicate_succ', List.flatten_append, List.flatten_cons, List.flatten_nil, List.append_nil]

theorem kinds_ex (nx its : Nat) : (kinds nx its).filterMap Kind.ex? = exchanges nx its := by
  unfold kinds exchanges
  rw [List.filterMap_append, List.filterMap_append, filterMap_flatMap_const Kind.ex? (stepKinds nx) ([forceX nx, posVelX nx] ++ (if nx = 0 then [] else [monoQX nx])) its (fun k => ?_)]
  · simp only [List.filterMap_cons, List.filterMap_nil, Kind.ex?, massX, forceX, posVelX, monoQX, List.append_nil, List.cons_append, List.nil_append]
  · have hz : nx * nx * nx = 0 ↔ nx = 0 := by simp [Nat.mul_eq_zero]
    unfold stepKinds
    by_cases h1 : k = 0 <;> by_cases h2 : nx = 0 <;> simp [h1, h2, hz, List.filterMap_cons, Kind.ex?]

theorem step_coll (nx k : Nat) : (stepKinds nx k).filterMap Kind.coll? = if k = 0 then [] else [(1, 1)] := by
  unfold stepKinds
  by_cases h1 : k = 0 <;> by_cases h2 : nx * nx * nx = 0 <;> simp [h1, h2, List.filterMap_cons, Kind.coll?]

theorem steps_coll (nx its : Nat) : ((List.range its).flatMap (stepKinds nx)).filterMap Kind.coll? = List.replicate (its - 1) (1, 1) := by
  induction its with
  | zero => rfl
  | succ n ih =>
    rw [List.range_succ, List.flatMap_append, List.filterMap_append, ih, List.flatMap_cons, List.flatMap_nil, List.append_nil, step_coll]
    cases n with
    | zero => rfl
    | succ n =>
      rw [if_neg (by omega)]
      simp [List.replicate_succ']

theorem kinds_coll (nx its : Nat) : (kinds nx its).filterMap Kind.coll? = collectives its := by
  unfold kinds collectives
  rw [List.filterMap_append, List.filterMap_append, steps_coll]
  simp [List.filterMap_cons, Kind.coll?]

theorem flatMap_owed (root r s t : Int) (l : List Kind) :
    l.flatMap (Kind.owed root r s t) = ((l.filterMap Kind.ex?).filter (fun x => t = x.tag)).flatMap fun x => wanted x (pos root r) (pos root s) := by
  induction l with
  | nil => rfl
  | cons k l ih =>
    cases k with
    | coll k n => simpa [Kind.owed, List.filterMap_cons, Kind.ex?] using ih
    | ex x =>
      simp only [List.flatMap_cons, Kind.owed, List.filterMap_cons, Kind.ex?, List.filter_cons, ih]
      by_cases h : t = x.tag <;> simp [h]

/-- **Messages.** For any cube of ranks, size and number of steps: the messages that a rank sends to
another with a tag, and the receives that the other has for them, are the messages that the
positions of the two demand in the exchanges with this tag, in order and with the same sizes. -/
theorem C158_messages {n root : Int} {nx its : Nat} {W : World} (h : app n root nx its = some W) {r s : Int} (hr : W.Has r)
    (hs : W.Has s) (t : Int) :
    sends (W.prog r) s t = ((exchanges nx its).filter (fun x => t = x.tag)).flatMap (fun x => wanted x (pos root r) (pos root s)) ∧
      recvs (W.prog s) r t = sends (W.prog r) s t := by
  have e1 : sends (W.prog r) s t = (kinds nx its).flatMap (Kind.owed root r s t) := by
    rw [(app_some h).2.2 r hr]
    exact filterMap_flatten _ _ _ (fun c => sends_kind (has_located h hr) (has_located h hs) c) _
  have e2 : recvs (W.prog s) r t = (kinds nx its).flatMap (Kind.owed root r s t) := by
    rw [(app_some h).2.2 s hs]
    exact filterMap_flatten _ _ _ (fun c => recvs_kind (has_located h hr) (has_located h hs) c) _
  refine ⟨?_, by rw [e2, e1]⟩
  rw [e1, flatMap_owed, kinds_ex]

/-- Each message has a receive of its size. -/
theorem C158_fits {n root : Int} {nx its : Nat} {W : World} (h : app n root nx its = some W) : Fits W := by
  intro s d t hs hd
  have e := (C158_messages h hs hd t).2
  refine ⟨by rw [e], fun i a b ha hb => ?_⟩
  rw [e, ha] at hb
  simp only [Option.some.injEq] at hb
  omega

theorem cube_rank {tp a b c : Int} (a0 : 0 ≤ a) (a1 : a < tp) (b0 : 0 ≤ b) (b1 : b < tp) (c0 : 0 ≤ c) (c1 : c < tp) :
    0 ≤ (a * tp + b) * tp + c ∧ (a * tp + b) * tp + c < tp * tp * tp := by
  have h1 : 0 ≤ a * tp := Int.mul_nonneg a0 (by omega)
  have h2 : a * tp ≤ (tp - 1) * tp := Int.mul_le_mul_of_nonneg_right (by omega) (by omega)
  have e2 : (tp - 1) * tp = tp * tp - tp := by rw [Int.sub_mul]; omega
  have h3 : 0 ≤ (a * tp + b) * tp := Int.mul_nonneg (by omega) (by omega)
  have h4 : (a * tp + b) * tp ≤ (tp * tp - 1) * tp := Int.mul_le_mul_of_nonneg_right (by omega) (by omega)
  have e4 : (tp * tp - 1) * tp = tp * tp * tp - tp := by rw [Int.sub_mul]; omega
  omega

theorem other_has {tp r : Int} (hp : Located tp r (pos tp r)) {x : Exchange} {t : List Post} {e : Post}
    (ht : e.block.conds = condsOf e.a e.b e.c ∧ near e.a ∧ near e.b ∧ near e.c) (he : e ∈ active tp r x t) :
    0 ≤ e.other tp r ∧ e.other tp r < tp * tp * tp := by
  obtain ⟨c0, c1, r0, r1, p0, p1, ep⟩ := hp
  obtain ⟨hc, na, nb, nc⟩ := ht
  have hrun := (List.mem_filter.1 he).2
  simp only [Block.runs, Bool.and_eq_true] at hrun
  have hall := hrun.1.1
  rw [hc] at hall
  unfold condsOf at hall
  rw [List.all_append, List.all_append, Bool.and_eq_true, Bool.and_eq_true, axis_row r0 r1 nb, axis_col c0 c1 nc, axis_plane p0 p1 na] at hall
  obtain ⟨⟨⟨b0, b1⟩, ⟨d0, d1⟩⟩, ⟨a0, a1⟩⟩ := hall
  have e1 : e.other tp r = (((pos tp r).plane + e.a) * tp + ((pos tp r).row + e.b)) * tp + ((pos tp r).col + e.c) := by
    unfold Post.other
    generalize pos tp r = p at *
    rw [ep]
    simp only [Int.add_mul, Int.mul_assoc]
    omega
  rw [e1]
  exact cube_rank a0 a1 b0 b1 d0 d1

/-- All messages stay in the world. -/
theorem C158_inside {n root : Int} {nx its : Nat} {W : World} (h : app n root nx its = some W) : Inside W := by
  intro r hr i hi
  obtain ⟨hn, hs, hprog⟩ := app_some h
  rw [hprog r hr, List.mem_flatten] at hi
  obtain ⟨l, hl, hi⟩ := hi
  obtain ⟨k, _, rfl⟩ := List.mem_map.1 hl
  have hp := has_located h hr
  have hhas : ∀ q, 0 ≤ q ∧ q < root * root * root → W.Has q := fun q hq => by
    unfold World.Has
    rw [hs, ← hn]
    exact hq
  cases k with
  | coll k m =>
    simp only [Kind.calls, List.mem_singleton] at hi
    subst hi
    exact ⟨fun d t m hh => by simp at hh, fun d t m hh => by simp at hh⟩
  | ex x =>
    simp only [Kind.calls, exchange, List.mem_append, List.mem_cons, commRecv, commSend, List.mem_map, List.not_mem_nil, or_false] at hi
    rcases hi with (⟨e, he, rfl⟩ | rfl | ⟨e, he, rfl⟩) | rfl
    · refine ⟨fun d t m hh => by simp at hh, fun d t m hh => ?_⟩
      simp only [Instr.irecv.injEq, reduceCtorEq, or_false] at hh
      rw [← hh.1]
      exact hhas _ (other_has hp (recv_conds e (List.mem_filter.1 he).1) he)
    · exact ⟨fun d t m hh => by simp at hh, fun d t m hh => by simp at hh⟩
    · refine ⟨fun d t m hh => ?_, fun d t m hh => by simp at hh⟩
      simp only [Instr.isend.injEq, reduceCtorEq, or_false] at hh
      rw [← hh.1]
      exact hhas _ (other_has hp (send_conds e (List.mem_filter.1 he).1) he)
    · exact ⟨fun d t m hh => by simp at hh, fun d t m hh => by simp at hh⟩

theorem mem_world {n q : Int} : q ∈ world n ↔ 0 ≤ q ∧ q < n := by
  unfold world
  rw [List.mem_map]
  constructor
  · rintro ⟨k, hk, rfl⟩
    rw [List.mem_range] at hk
    have : (Int.ofNat k) = (k : Int) := rfl
    omega
  · intro h
    refine ⟨q.toNat, List.mem_range.2 (by omega), ?_⟩
    have : (Int.ofNat q.toNat) = (q.toNat : Int) := rfl
    omega

theorem colls_kind (root r : Int) (ms : List Int) (k : Kind) :
    colls (k.calls root r) ms = if world (root * root * root) = ms then k.coll?.toList else [] := by
  cases k with
  | ex x => simp [Kind.calls, colls_exchange, Kind.coll?]
  | coll k n =>
    simp only [Kind.calls, colls, List.filterMap_cons, List.filterMap_nil, isColl, Kind.coll?]
    by_cases h : world (root * root * root) = ms <;> simp [h]

theorem flatMap_toList {α β : Type} (f : α → Option β) (l : List α) : l.flatMap (fun a => (f a).toList) = l.filterMap f := by
  induction l with
  | nil => rfl
  | cons a l ih =>
    rw [List.flatMap_cons, ih, List.filterMap_cons]
    cases f a <;> rfl

/-- All ranks call the barrier, the reductions of the time step and the last reduction alike. -/
theorem C158_collectives {n root : Int} {nx its : Nat} {W : World} (h : app n root nx its = some W) {r : Int} (hr : W.Has r) :
    colls (W.prog r) (world n) = collectives its := by
  obtain ⟨hn, _, hprog⟩ := app_some h
  rw [hprog r hr, ← kinds_coll nx its, ← flatMap_toList]
  refine filterMap_flatten _ _ _ (fun c => ?_) _
  have := colls_kind root r (world n) c
  rw [hn, if_pos rfl] at this
  exact this

/-- The ranks agree on the collectives. -/
theorem C158_agree {n root : Int} {nx its : Nat} {W : World} (h : app n root nx its = some W) : Agree W := by
  intro r hr ms k m hc
  obtain ⟨hn, hs, hprog⟩ := app_some h
  have hms : ms = world n := by
    rw [hprog r hr, List.mem_flatten] at hc
    obtain ⟨l, hl, hc⟩ := hc
    obtain ⟨kd, _, rfl⟩ := List.mem_map.1 hl
    have h2 : (colls (kd.calls root r) ms) ≠ [] := by
      intro he
      unfold colls at he
      rw [List.filterMap_eq_nil_iff] at he
      have := he _ hc
      simp [isColl] at this
    rw [colls_kind] at h2
    split at h2
    · rename_i e; rw [← e, hn]
    · exact absurd rfl h2
  subst hms
  refine ⟨mem_world.2 (by rw [← hs]; exact hr), fun q hq => ?_⟩
  have hq' : W.Has q := by
    unfold World.Has
    rw [hs]
    exact mem_world.1 hq
  exact ⟨hq', by rw [C158_collectives h hr, C158_collectives h hq']⟩

theorem kind_phase (root r : Int) (k : Kind) : Phase (k.calls root r) := by
  cases k with
  | coll k n => exact .coll _ _ _
  | ex x =>
    refine .exchange _ fun c hc => ?_
    simp only [List.mem_append, List.mem_cons, commRecv, commSend, List.mem_map] at hc
    rcases hc with ⟨e, _, rfl⟩ | rfl | ⟨e, _, rfl⟩ <;> simp [Instr.Free]

/-- **The program ends.** With whatever sizes that are sent eagerly, no run has more steps than there
are calls, and wherever a run stands, all ranks have ended or one can go on. -/
theorem C158_ends {n root : Int} {nx its : Nat} {W : World} (h : app n root nx its = some W) (eager : Int → Prop) :
    Completes W eager := by
  obtain ⟨hn, hs, hprog⟩ := app_some h
  have get : ∀ r (i : Nat) a, ((kinds nx its).map (Kind.calls root r))[i]? = some a → ∃ k, (kinds nx its)[i]? = some k ∧ k.calls root r = a := by
    intro r i a ha
    rw [List.getElem?_map] at ha
    cases hk : (kinds nx its)[i]? with
    | none => rw [hk] at ha; simp at ha
    | some k => rw [hk] at ha; exact ⟨k, rfl, by simpa using ha⟩
  refine phased_completes (fun r => (kinds nx its).map (Kind.calls root r)) hprog (fun _ _ _ _ => by simp) ?_ (C158_inside h) ?_ ?_ ?_ eager
  · intro r _ b hb
    obtain ⟨k, _, rfl⟩ := List.mem_map.1 hb
    exact kind_phase root r k
  · intro r s t hr hs' i a b ha hb
    obtain ⟨k, hk, rfl⟩ := get r i a ha
    obtain ⟨k', hk', rfl⟩ := get s i b hb
    rw [hk] at hk'
    simp only [Option.some.injEq] at hk'
    subst hk'
    rw [recvs_kind (has_located h hs') (has_located h hr), sends_kind (has_located h hs') (has_located h hr)]
  · intro r s ms hr hs' i a b ha hb
    obtain ⟨k, hk, rfl⟩ := get r i a ha
    obtain ⟨k', hk', rfl⟩ := get s i b hb
    rw [hk] at hk'
    simp only [Option.some.injEq] at hk'
    subst hk'
    rw [colls_kind, colls_kind]
  · intro r hr ms k m hc q hq
    exact ((C158_agree h r hr ms k m hc).2 q hq).1

/-- The program starts exactly for a cube of ranks. -/
theorem C158_cube (n root : Int) (nx its : Nat) : (app n root nx its).isSome = true ↔ root * root * root = n := by
  unfold app
  split
  · rename_i h; simp [h]
  · rename_i h; simp only [Decidable.not_not] at h; simp [h]

/-- Eight ranks with two elements along an edge and two steps: rank 0 owes rank 7 one corner in three
exchanges of all directions, and the positions and velocities go to lower ranks only. -/
example : ∃ W, app 8 2 2 2 = some W ∧ sends (W.prog 0) 7 1024 = [1, 3, 3] ∧ sends (W.prog 0) 7 2048 = [] ∧
    sends (W.prog 7) 0 2048 = [6, 6] ∧ sends (W.prog 0) 1 3072 = [12, 12] ∧ sends (W.prog 0) 3 3072 = [] ∧
    sends (W.prog 0) 1 1024 = [9, 27, 27] := by
  refine ⟨_, rfl, ?_, ?_, ?_, ?_, ?_, ?_⟩ <;> decide +kernel

example : Located 3 13 (pos 3 13) := C158_position (by decide) (by decide) (by decide)
example : wanted (posVelX 4) (pos 3 13) (pos 3 12) = [150] ∧ wanted (posVelX 4) (pos 3 12) (pos 3 13) = [] := by decide +kernel

end Verif.Apps.Lulesh
