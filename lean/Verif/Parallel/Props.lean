import Verif.Parallel.Tree
import Verif.Events.Props
/-!
Properties C09 and C10: conservative parallel simulation.

`Reach pr part N L k lbo ws`: the `N` workers can be in the states `ws` after `k` rounds
of the window protocol, `lbo` being the agreed lower bound (`none`: no events left).
`Serial pr n s`: the serial simulation is in state `s` after `n` events.
-/
set_option autoImplicit false
namespace SST.Parallel
open SST.Events
variable {σ P : Type} {pr : Program σ P} {part : Nat → Nat} {N L : Nat}

/-- Specification: the sequence of events (time, link, number, content) component `c` has
handled in an execution. -/
def seenBy (pr : Program σ P) (c : Nat) (x : Exec (WSt σ) P) : List (Event P) :=
  x.trace.filter (fun e => pr.dst e.link == c)

/-! ### Example program: two components on two workers exchange a counter. -/

/-- Components 0 and 1; link 0 from 0 to 1, link 1 from 1 to 0, latency 5; links `c+2`
are self-links with latency 1.  Both start a countdown; the handler of payload `n+1`
sends `n` to the peer and, when odd, a zero to itself. -/
def duo : Program Nat Nat where
  src l := if l = 0 then 0 else if l = 1 then 1 else l - 2
  dst l := if l = 0 then 1 else if l = 1 then 0 else l - 2
  latency l := if l < 2 then 5 else 1
  ncomp := 2
  setup c := if c < 2 then [⟨c, c, 1⟩, ⟨c + 2, 0, 2⟩] else []
  init _ := 0
  handle c s e := (s + e.payload,
    match e.payload with
    | 0 => []
    | n + 1 => (if c < 2 then [⟨c, 0, n⟩] else []) ++ (if n % 2 = 1 then [⟨c + 2, 2, 0⟩] else []))

/-- Components in turn on two workers, used in examples. -/
def duoPart : Nat → Nat := fun c => c % 2

/-- The example satisfies the assumptions of the theorems below. -/
theorem duo_net : Net duo duoPart 2 5 := by
  refine ⟨?_, ?_, ?_, ?_, by omega⟩
  · intro c; simp only [duoPart]; omega
  · intro l; simp only [duo, duoPart]; split <;> (try split) <;> (try split) <;> omega
  · intro c s e o ho
    simp only [duo] at ho ⊢
    split at ho
    · simp at ho
    · rw [List.mem_append] at ho
      rcases ho with ho | ho
      · split at ho
        · simp at ho; subst ho; simp only; split <;> (try split) <;> omega
        · simp at ho
      · split at ho
        · simp at ho; subst ho; simp
        · simp at ho
  · intro c o ho
    simp only [duo] at ho ⊢
    split at ho
    · simp at ho
      rcases ho with rfl | rfl
      · simp only; split <;> (try split) <;> omega
      · simp
    · simp at ho

/-- Executable serial run for the examples. -/
def serialRun (pr : Program σ P) : Nat → Option (Exec (WSt σ) P)
  | 0 => setupWorker pr serialPart 0
  | n + 1 =>
    match serialRun pr n with
    | none => none
    | some x =>
      match step true (handler pr serialPart 0) none x with
      | .next y => some y
      | _ => none

theorem serialRun_sound : ∀ {n : Nat} {x : Exec (WSt σ) P}, serialRun pr n = some x → Serial pr n x
  | 0, _, h => Serial.start h
  | n + 1, x, h => by
    simp only [serialRun] at h
    split at h
    · cases h
    · rename_i y hy
      split at h
      · rename_i z hz; cases h; exact Serial.next (serialRun_sound hy) hz
      · cases h

/-! ### C09 -/

/-- C09: between rounds, every event on its way to worker `w` is due not before that
worker's clock: it is due at or after the lower bound, which no clock has passed. -/
theorem C09_incoming_not_in_past (net : Net pr part N L) {k lb : Nat} {ws : Nat → Exec (WSt σ) P}
    (h : Reach pr part N L k (some lb) ws) {w : Nat} (hw : w < N) {e : Event P}
    (he : ∃ v, v < N ∧ e ∈ (ws v).mgr.outbox ∧ part (pr.dst e.link) = w) :
    (ws w).mgr.now ≤ lb ∧ lb ≤ e.time := by
  obtain ⟨n, s, _, hsb, _⟩ := reach_sb net h
  obtain ⟨v, hv, h1, h2⟩ := he
  exact ⟨hsb.nlb lb rfl w hw,
    sb_pending_ge hsb hw (List.mem_append_right _ ((mem_pending pr part N).2 ⟨⟨v, hv, h1⟩, h2⟩))⟩

/-- C09: registering the incoming events, in whatever order, never aborts. -/
theorem C09_register_never_aborts (net : Net pr part N L) {k lb : Nat} {ws : Nat → Exec (WSt σ) P}
    (h : Reach pr part N L k (some lb) ws) {w : Nat} (hw : w < N) {inc : List (Event P)}
    (hinc : inc.Perm (pendingFor pr part N (fun v => (ws v).mgr) w)) :
    register inc (ws w) ≠ none := by
  obtain ⟨n, s, _, hsb, _⟩ := reach_sb net h
  obtain ⟨m, hm, _⟩ := register_ok hsb hw hinc
  rw [hm]; simp

/-- C09: inside a window, whatever part of their windows the workers have executed, no
worker's next step aborts: no handler schedules into the past, no event is lost. -/
theorem C09_window_never_aborts (net : Net pr part N L) {k lb : Nat} {ws : Nat → Exec (WSt σ) P}
    (h : Reach pr part N L k (some lb) ws) {w : Nat} (hw : w < N) {inc : List (Event P)}
    (hinc : inc.Perm (pendingFor pr part N (fun v => (ws v).mgr) w)) {m : Exec (WSt σ) P}
    (hm : register inc (ws w) = some m) {n : Nat} {x : Exec (WSt σ) P}
    (hx : Prefix (handler pr part w) (some (lb + L)) n m x) :
    step true (handler pr part w) (some (lb + L)) x ≠ .abort := by
  obtain ⟨_, s, _, hsb, _⟩ := reach_sb net h
  exact window_safe net hsb hw hinc hm hx

/-- C09: setup itself never aborts. -/
theorem C09_setup_never_aborts (net : Net pr part N L) {w : Nat} (hw : w < N) :
    setupWorker pr part w ≠ none := by
  obtain ⟨_, _, h, _⟩ := setup_sb net
  obtain ⟨x, hx⟩ := h w hw
  rw [hx]; simp

/-- C09: the lookahead the simulator uses is positive and at most the latency of every
link between workers (thread links `thr`, process links `rem`), or the simulator aborts. -/
theorem C09_lookahead_valid (lookahead : Nat) (rem thr : List Nat) (r t L : Nat)
    (hr : setMinLatencies 0 rem = some r) (ht : setMinLatencies 0 thr = some t)
    (hL : (checkLookahead lookahead r t).bind startLookahead = some L) :
    0 < L ∧ L = lookahead ∧ (∀ x ∈ rem, L ≤ x) ∧ (∀ x ∈ thr, L ≤ x) := by
  have key : ∀ (l : List Nat) (c d : Nat), setMinLatencies c l = some d →
      (∀ x ∈ l, 0 < d ∧ d ≤ x) ∧ (0 < c → 0 < d ∧ d ≤ c) := by
    intro l
    induction l with
    | nil => intro c d h; simp [setMinLatencies] at h; subst h; simp
    | cons a l ih =>
      intro c d h
      simp only [setMinLatencies] at h
      split at h
      · cases h
      · rename_i c' hc'
        have := ih _ _ h
        simp only [setMinLatency] at hc'
        have h1 : 0 < c' ∧ c' ≤ a ∧ (0 < c → c' ≤ c) := by
          split at hc'
          · cases hc'
          · split at hc' <;> cases hc' <;> omega
        have h2 := this.2 h1.1
        refine ⟨?_, fun hc => ⟨h2.1, by have := h1.2.2 hc; omega⟩⟩
        intro x hx
        rcases List.mem_cons.1 hx with rfl | hx
        · exact ⟨h2.1, by omega⟩
        · exact this.1 x hx
  have k1 := (key _ _ _ hr).1
  have k2 := (key _ _ _ ht).1
  have hc : ¬ (if t > 0 then min (if r > 0 then r else lookahead) t else (if r > 0 then r else lookahead)) < lookahead ∧ lookahead ≠ 0 ∧ L = lookahead := by
    simp only [checkLookahead] at hL
    generalize (if t > 0 then min (if r > 0 then r else lookahead) t else (if r > 0 then r else lookahead)) = c at hL ⊢
    by_cases h : c < lookahead
    · simp [h] at hL
    · simp only [h, if_false, Option.bind_some, startLookahead] at hL
      split at hL
      · cases hL
      · cases hL; exact ⟨h, by assumption, rfl⟩
  obtain ⟨hc, h0, rfl⟩ := hc
  refine ⟨by omega, rfl, ?_, ?_⟩
  · intro x hx
    have := k1 x hx
    split at hc <;> (try split at hc) <;> omega
  · intro x hx
    have := k2 x hx
    split at hc <;> (try split at hc) <;> omega

example : setMinLatencies 0 [7, 3, 9] = some 3 ∧ setMinLatencies 0 [4] = some 4 ∧
    (checkLookahead 3 3 4).bind startLookahead = some 3 ∧ checkLookahead 4 3 4 = none := by decide

/-! ### C10 -/

/-- C10: at every round boundary the partitioned run is in the state of a serial run:
there is a number of serial events after which every component has seen the same events in
the same order and has the same state. -/
theorem C10_same_history (net : Net pr part N L) {k : Nat} {lbo : Option Nat}
    {ws : Nat → Exec (WSt σ) P} (h : Reach pr part N L k lbo ws) :
    ∃ n s, Serial pr n s ∧
      ∀ c, seenBy pr c (ws (part c)) = seenBy pr c s ∧ (ws (part c)).user.st c = s.user.st c := by
  obtain ⟨n, s, hser, hsb, _⟩ := reach_sb net h
  exact ⟨n, s, hser, fun c => ⟨(hsb.hist c).symm, (hsb.st c).symm⟩⟩

/-- C10: a partitioned run that ends has done exactly what the complete serial run does:
the serial run ends too, and any complete serial run gives every component the same
history and final state. -/
theorem C10_complete_same (net : Net pr part N L) {k : Nat} {ws : Nat → Exec (WSt σ) P}
    (h : Reach pr part N L k none ws) :
    (∃ n s, Serial pr n s ∧ s.mgr.queue = []) ∧
    ∀ n s, Serial pr n s → s.mgr.queue = [] →
      ∀ c, seenBy pr c (ws (part c)) = seenBy pr c s ∧ (ws (part c)).user.st c = s.user.st c := by
  obtain ⟨n, s, hser, hsb, _, he⟩ := reach_sb net h
  refine ⟨⟨n, s, hser, he rfl⟩, ?_⟩
  intro n' s' hser' he' c
  have : n' = n := Nat.le_antisymm (serial_end hser (he rfl) hser') (serial_end hser' he' hser)
  subst this
  rw [serial_det hser' hser]
  exact ⟨(hsb.hist c).symm, (hsb.st c).symm⟩

/-- C10: if the serial run ends, the partitioned run ends. -/
theorem C10_terminates (net : Net pr part N L) {n : Nat} {s : Exec (WSt σ) P}
    (hs : Serial pr n s) (he : s.mgr.queue = []) :
    ∃ k ws, Reach pr part N L k none ws := by
  obtain ⟨s0, h1, h2, h3⟩ := setup_sb net
  have h2' : ∀ w, ∃ x, w < N → setupWorker pr part w = some x := by
    intro w
    by_cases hw : w < N
    · obtain ⟨x, hx⟩ := h2 w hw; exact ⟨x, fun _ => hx⟩
    · exact ⟨s0, fun h => absurd h hw⟩
  have hr := Reach.start (L := L) (fun w hw => (h2' w).choose_spec hw)
  have hsb := h3 _ (fun w hw => (h2' w).choose_spec hw)
  have hst : Steps pr n s0 s := serial_prefix (Serial.start h1) (by simpa using hs)
  exact finish0 net hr (Serial.start h1) hsb hst he

/-- C10 with message passing: the same as `C10_complete_same` for the multi-process main
loop, provided no component sends to another process during setup (without this it is
false, see `C10_setup_message_lost_refuted`). -/
theorem C10_ipc_complete_same_partial (net : Net pr part N L)
    (hsetup : ∀ c o, o ∈ pr.setup c → part (pr.dst o.port) = part c)
    {k : Nat} {zs : Nat → Exec (WSt σ) P} (h : ReachIpc pr part N L k none zs) :
    (∃ n s, Serial pr n s ∧ s.mgr.queue = []) ∧
    ∀ n s, Serial pr n s → s.mgr.queue = [] →
      ∀ c, seenBy pr c (zs (part c)) = seenBy pr c s ∧ (zs (part c)).user.st c = s.user.st c := by
  obtain ⟨ws, hr, hz⟩ := ipc_reach hsetup h
  have := C10_complete_same net hr
  refine ⟨this.1, ?_⟩
  intro n s h1 h2 c
  have h3 := this.2 n s h1 h2 c
  obtain ⟨g1, g2⟩ := hz _ (net.npart c)
  simp only [seenBy] at h3 ⊢
  rw [g1, g2]
  exact h3

/-- The example run really does something: the serial run of `duo` ends after 12 events,
so by `C10_terminates` and `C10_complete_same` the two-worker run ends too and shows
component 1 the events below. -/
example : ∃ n s, Serial duo n s ∧ s.mgr.queue = [] ∧
    (seenBy duo 1 s).map (fun e => (e.time, e.link, e.payload)) =
      [(1, 3, 2), (4, 3, 0), (5, 0, 1), (6, 0, 1), (11, 0, 0), (11, 0, 0)] ∧
    ∃ k ws, Reach duo duoPart 2 5 k none ws ∧ seenBy duo 1 (ws 1) = seenBy duo 1 s := by
  have h : Serial duo 12 ((serialRun duo 12).get (by decide)) := serialRun_sound (by simp)
  have he : ((serialRun duo 12).get (by decide)).mgr.queue = [] := by decide
  obtain ⟨k, ws, hr⟩ := C10_terminates duo_net h he
  exact ⟨12, _, h, he, by decide, k, ws, hr, ((C10_complete_same duo_net hr).2 _ _ h he 1).1⟩

/-- Two components on two processes; component 0 sends one message to component 1 during
setup and nothing else happens. -/
def hello : Program Nat Nat where
  src _ := 0
  dst _ := 1
  latency _ := 5
  ncomp := 2
  setup c := if c = 0 then [⟨0, 2, 9⟩] else []
  init _ := 0
  handle _ s e := (s + e.payload, [])

/-- C10 is false with message passing when a component sends to another process during
setup: the vote after the first window does not see that message, so the run ends
(`none`: no events left) although component 1 has not handled it; the serial run delivers
it at time 7. -/
theorem C10_setup_message_lost_refuted :
    ∃ zs, ReachIpc hello duoPart 2 5 1 none zs ∧ seenBy hello 1 (zs 1) = [] ∧
      ∃ s, Serial hello 1 s ∧ s.mgr.queue = [] ∧
        seenBy hello 1 s = [⟨7, 0, 0, 9⟩] := by
  have hlt : ∀ {p : Nat → Prop}, p 0 → p 1 → ∀ w, w < 2 → p w := by
    intro p h0 h1 w hw
    match w, hw with
    | 0, _ => exact h0
    | 1, _ => exact h1
  let ws : Nat → Exec (WSt Nat) Nat := fun w =>
    if w = 0 then (setupWorker hello duoPart 0).get (by decide)
    else (setupWorker hello duoPart 1).get (by decide)
  let zs' : Nat → Exec (WSt Nat) Nat := fun w =>
    if w = 0 then (register [] (ipcStart (ws 0))).get (by decide)
    else (register [⟨7, 0, 0, 9⟩] (ipcStart (ws 1))).get (by decide)
  have h0 : ReachIpc hello duoPart 2 5 0 (some 0) (fun w => ipcStart (ws w)) :=
    ReachIpc.start (hlt (by simp [ws]) (by simp [ws]))
  have hround : RoundIpc hello duoPart 2 5 0 (fun w => ipcStart (ws w)) (fun w => ipcStart (ws w)) zs' := by
    refine hlt ⟨⟨0, Runs.halt rfl⟩, [], ?_, ?_⟩ ⟨⟨0, Runs.halt rfl⟩, [⟨7, 0, 0, 9⟩], ?_, ?_⟩
    · have : pendingFor hello duoPart 2 (fun v => (ipcStart (ws v)).mgr) 0 = [] := by decide
      rw [this]
    · simp [zs']
    · have : pendingFor hello duoPart 2 (fun v => (ipcStart (ws v)).mgr) 1 = [⟨7, 0, 0, 9⟩] := by decide
      rw [this]
    · simp [zs']
  have h1 := ReachIpc.round h0 hround
  have hb : nextBound 2 (fun w => ipcStart (ws w)) = none := by decide
  rw [hb] at h1
  refine ⟨zs', h1, by decide, ?_⟩
  have h : Serial hello 1 ((serialRun hello 1).get (by decide)) := serialRun_sound (by simp)
  exact ⟨_, h, by decide, by decide⟩

end SST.Parallel

namespace SST.Parallel
open SST.Events

/-! ### C11 -/

/-- C11: with `n` subthreads, the broadcast from the main thread reaches every subthread
exactly once and nobody else. -/
theorem C11_every_thread_once (n : Nat) : (reached n).Perm (List.range n) := by
  rw [List.perm_iff_count]
  intro x
  rw [reached_count]
  by_cases h : x < n
  · rw [List.nodup_range.count, if_pos (List.mem_range.2 h), if_pos h]
  · rw [List.count_eq_zero_of_not_mem (by simpa using h)]; simp [h]

/-- C11: no thread is the child of two threads, and no thread of the tree is out of
range: the children of queue `q` are `2q+2` and `2q+3` when they exist, those of the
main thread are 0 and 1. -/
theorem C11_tree_shape (n q : Nat) :
    buildTree n q = (if 2 * q + 2 < n then some (2 * q + 2) else none,
      if 2 * q + 3 < n then some (2 * q + 3) else none) :=
  buildTree_heap n q

/-- C11: the time the main thread obtains is the minimum over its own vote and the votes
of all `n` subthreads: it is nobody's infinity unless all are, it is somebody's vote, and
it is below all votes. -/
theorem C11_minimum (n : Nat) (own : Option Nat) (vote : Nat → Option Nat) :
    (mainMin n own vote = none ↔ own = none ∧ ∀ q, q < n → vote q = none) ∧
    (∀ t, mainMin n own vote = some t →
      (own = some t ∨ ∃ q, q < n ∧ vote q = some t) ∧
      (∀ t', own = some t' → t ≤ t') ∧ (∀ q, q < n → ∀ t', vote q = some t' → t ≤ t')) := by
  let f : Option Nat → Option Nat := fun o => match o with | none => own | some q => vote q
  have hsub : ∀ c, IsMin f ((below (buildTree n) n c).map some) (subtreeMin (buildTree n) vote n c) := by
    intro c
    have := subtree_isMin (buildTree n) vote n c
    revert this
    cases subtreeMin (buildTree n) vote n c with
    | none => simp [IsMin, f]
    | some t =>
      rintro ⟨⟨a, ha, hv⟩, h2⟩
      refine ⟨⟨some a, List.mem_map.2 ⟨a, ha, rfl⟩, hv⟩, ?_⟩
      intro b hb t' ht'
      obtain ⟨b', hb', rfl⟩ := List.mem_map.1 hb
      exact h2 b' hb' t' ht'
  have key : IsMin f (none :: (reached n).map some) (mainMin n own vote) := by
    have h0 := isMin_single f none
    unfold mainMin reached
    cases h1 : (mainKids n).1 <;> cases h2 : (mainKids n).2 <;>
      simp only [List.nil_append, List.append_nil, List.map_nil]
    · exact h0
    · exact isMin_append h0 (hsub _)
    · exact isMin_append h0 (hsub _)
    · rename_i a b
      have := isMin_append (isMin_append h0 (hsub a)) (hsub b)
      simpa using this
  have hmem : ∀ q, q ∈ reached n ↔ q < n := by
    intro q; rw [(C11_every_thread_once n).mem_iff]; simp
  cases hm : mainMin n own vote with
  | none =>
    rw [hm] at key
    simp only [IsMin, List.mem_cons, List.mem_map] at key
    refine ⟨⟨fun _ => ⟨key none (Or.inl rfl), fun q hq => key (some q) (Or.inr ⟨q, (hmem q).2 hq, rfl⟩)⟩, fun _ => rfl⟩, ?_⟩
    intro t h; cases h
  | some t =>
    rw [hm] at key
    simp only [IsMin, List.mem_cons, List.mem_map] at key
    obtain ⟨⟨a, ha, hfa⟩, h2⟩ := key
    have hsome : own = some t ∨ ∃ q, q < n ∧ vote q = some t := by
      rcases ha with rfl | ⟨q, hq, rfl⟩
      · exact Or.inl hfa
      · exact Or.inr ⟨q, (hmem q).1 hq, hfa⟩
    refine ⟨⟨fun h => (by cases h), ?_⟩, ?_⟩
    · rintro ⟨h3, h4⟩
      rcases hsome with h | ⟨q, hq, h⟩
      · rw [h3] at h; cases h
      · rw [h4 q hq] at h; cases h
    · intro t' ht'
      cases ht'
      exact ⟨hsome, fun t' h => h2 none (Or.inl rfl) t' h,
        fun q hq t' h => h2 (some q) (Or.inr ⟨q, (hmem q).2 hq, rfl⟩) t' h⟩

/-- C11: hence the lower bound agreed on through the tree is the minimum of all votes used
in C09 and C10 (the main thread is the last worker). -/
theorem C11_is_round_bound {σ P : Type} (n : Nat) (ws : Nat → Exec (WSt σ) P) :
    mainMin n (vote (ws n)) (fun q => vote (ws q)) = nextBound (n + 1) ws := by
  obtain ⟨h1, h2⟩ := C11_minimum n (vote (ws n)) (fun q => vote (ws q))
  obtain ⟨g1, g2⟩ := foldr_min (l := List.range (n + 1)) (f := fun w => vote (ws w))
  have hlt : ∀ w, w ∈ List.range (n + 1) ↔ w = n ∨ w < n := by
    intro w; rw [List.mem_range]; omega
  cases hm : mainMin n (vote (ws n)) (fun q => vote (ws q)) with
  | none =>
    obtain ⟨h3, h4⟩ := h1.1 hm
    cases hb : nextBound (n + 1) ws with
    | none => rfl
    | some t =>
      obtain ⟨⟨w, hw, hv⟩, _⟩ := g2 t hb
      rcases (hlt w).1 hw with rfl | hw
      · rw [h3] at hv; cases hv
      · have := h4 w hw; rw [this] at hv; cases hv
  | some t =>
    obtain ⟨h3, h4, h5⟩ := h2 t hm
    cases hb : nextBound (n + 1) ws with
    | none =>
      have := g1 hb
      rcases h3 with h | ⟨q, hq, h⟩
      · have := this n ((hlt n).2 (Or.inl rfl)); rw [this] at h; cases h
      · have := this q ((hlt q).2 (Or.inr hq)); rw [this] at h; cases h
    | some t' =>
      obtain ⟨⟨w, hw, hv⟩, hle⟩ := g2 t' hb
      have l1 : t ≤ t' := by
        rcases (hlt w).1 hw with rfl | hw
        · exact h4 t' hv
        · exact h5 w hw t' hv
      have l2 : t' ≤ t := by
        rcases h3 with h | ⟨q, hq, h⟩
        · exact hle n ((hlt n).2 (Or.inl rfl)) t h
        · exact hle q ((hlt q).2 (Or.inr hq)) t h
      congr 1; omega

example : reached 11 = [0, 2, 6, 7, 3, 8, 9, 1, 4, 10, 5] ∧
    mainMin 11 (some 9) (fun q => if q = 10 then some 3 else if q % 2 = 0 then none else some (q + 4))
      = some 3 := by decide +kernel

end SST.Parallel

namespace SST.Parallel
open SST.Events

/-! ### C69 -/

/-- C69: from any state reached by a checked history, a run to the horizon `H` executes
only events before `H` and leaves only events at or after `H`. -/
theorem C69_window_exact {S P : Type} (h : Handler S P) (u : S) (ops : List (Op P))
    (x y : Exec S P) (H n : Nat) (hx : doOps true h (start u) ops = some x)
    (hr : Runs true h (some H) n x y) :
    ∃ new, y.trace = x.trace ++ new ∧ new.length = n ∧ (∀ e ∈ new, e.time < H) ∧
      (∀ e ∈ y.mgr.queue, H ≤ e.time) := by
  have hg := good_ops (good_start u) hx
  clear hx
  generalize hH : some H = hz at hr
  induction hr with
  | @halt x hs =>
    subst hH
    refine ⟨[], by simp, rfl, by simp, ?_⟩
    intro e he
    have hso := hg.sorted
    simp only [step] at hs
    split at hs
    · rename_i hq; rw [hq] at he; simp at he
    · rename_i e0 q hq
      have hnow := hg.future e0 (by simp [hq])
      rw [if_neg (by simp; omega)] at hs
      split at hs
      · rename_i hb
        simp only [beyond, decide_eq_true_eq] at hb
        rw [hq, Sorted, List.pairwise_cons] at hso
        rw [hq] at he
        rcases List.mem_cons.1 he with rfl | he
        · exact hb
        · have := hso.1 e he; rw [lt_iff] at this; omega
      · split at hs <;> cases hs
  | @next n x y z hs _ ih =>
    subst hH
    have hgy : Good y := by
      refine good_ops (h := h) (ops := [.tick (some H)]) hg ?_
      simp only [doOps, doOp, hs]
    obtain ⟨new, h1, h2, h3, h4⟩ := ih hgy
    simp only [step] at hs
    split at hs
    · cases hs
    · rename_i e q hq
      split at hs
      · cases hs
      · split at hs
        · cases hs
        · rename_i hb
          split at hs
          · cases hs
          · rename_i w hw
            cases hs
            have := (doActs_mgr.1 _ hw).2.2
            refine ⟨e :: new, ?_, by simp [h2], ?_, h4⟩
            · rw [h1, this]; simp
            · intro e' he'
              rcases List.mem_cons.1 he' with rfl | he'
              · simp only [beyond, decide_eq_true_eq] at hb; omega
              · exact h3 e' he'

/-- C69: the value reported at the end is not later than any pending event. -/
theorem C69_vote_lower_bound {S P : Type} (h : Handler S P) (u : S) (ops : List (Op P))
    (x : Exec S P) (hx : doOps true h (start u) ops = some x) :
    ∀ e ∈ x.mgr.queue, ∃ t, vote x = some t ∧ t ≤ e.time := by
  intro e he
  have hso := (good_ops (good_start u) hx).sorted
  cases hq : x.mgr.queue with
  | nil => rw [hq] at he; simp at he
  | cons e0 q =>
    have h0 : e0.time ≤ e.time := by
      rw [hq, Sorted, List.pairwise_cons] at hso
      rw [hq] at he
      rcases List.mem_cons.1 he with rfl | he
      · omega
      · have := hso.1 e he; rw [lt_iff] at this; omega
    simp only [vote, hq]
    cases x.mgr.minIpc with
    | none => exact ⟨_, rfl, h0⟩
    | some t => exact ⟨_, rfl, by omega⟩

/-- Two events, one before and one exactly at the horizon 5. -/
example : ∃ x y, doOps true demoHandler (start 0) [.sched ⟨5, 0, 0, 0⟩, .sched ⟨4, 0, 1, 0⟩] = some x ∧
    Runs true demoHandler (some 5) 1 x y ∧ y.trace.map (·.time) = [4] ∧ vote y = some 5 := by
  let x : Exec Nat Nat := ⟨⟨0, [⟨4, 0, 1, 0⟩, ⟨5, 0, 0, 0⟩], none, [], false⟩, 0, [],
    [(0, ⟨5, 0, 0, 0⟩), (0, ⟨4, 0, 1, 0⟩)]⟩
  let y : Exec Nat Nat := ⟨⟨4, [⟨5, 0, 0, 0⟩], none, [], false⟩, 1, [⟨4, 0, 1, 0⟩],
    [(0, ⟨5, 0, 0, 0⟩), (0, ⟨4, 0, 1, 0⟩)]⟩
  have h1 : step true demoHandler (some 5) x = .next y := by rfl
  have h2 : step true demoHandler (some 5) y = .halt := by rfl
  exact ⟨x, y, by rfl, Runs.next h1 (Runs.halt h2), by decide, by decide⟩

end SST.Parallel
