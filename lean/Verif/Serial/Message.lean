import Verif.Serial.Lemmas2
/-
The stream of events sent to another process: sstmac/backends/common/parallel_runtime.cc:
313-351 (runSerialize, sendEvent), sstmac/common/event_manager.cc:221-234
(serializeSchedule), sstmac/backends/native/clock_cycle_event_container.cc:131-141 (the
receive loop).
-/
namespace SST.Serial

/-- `IpcEvent`, sstmac/common/ipc_event.h:53-64, without `ser_size`.  A `Timestamp` is its
16 bytes. -/
structure Ipc (ev : Ty) where
  thread : Nat
  t : List Byte
  seqnum : Nat
  link : Nat
  rank : Nat
  ev : ev.den

/-- The members in the order of `runSerialize`, parallel_runtime.cc:315-324. -/
def ipcTy (ev : Ty) : Ty :=
  .pair (.prim 4) (.pair (.prim 4) (.pair (.prim 16) (.pair (.prim 4) (.pair (.prim 8)
    (.pair (.prim 4) ev)))))

/-- `align64`, parallel_runtime.h:64-69. -/
def align64 (n : Nat) : Nat := if n % 64 ≠ 0 then n + 64 - n % 64 else n

/-- `ser_size`: `overhead + ser.size()` rounded up, parallel_runtime.cc:330-343. -/
def serSize {ev : Ty} (e : Ipc ev) : Nat := align64 (4 + 16 + 4 + 8 + 4 + 4 + size ev e.ev)

/-- What is serialised. -/
def Ipc.den {ev : Ty} (e : Ipc ev) : (ipcTy ev).den :=
  ((le 4 (serSize e), (le 4 e.thread, (e.t, (le 4 e.seqnum, (le 8 e.link, (le 4 e.rank, e.ev)))))) :
    List Byte × List Byte × List Byte × List Byte × List Byte × List Byte × ev.den)

/-- What is found after deserialising. -/
def Ipc.ofDen {ev : Ty} (d : (ipcTy ev).den) : Ipc ev :=
  let d : List Byte × List Byte × List Byte × List Byte × List Byte × List Byte × ev.den := d
  { thread := ofLe d.2.1, t := d.2.2.1, seqnum := ofLe d.2.2.2.1, link := ofLe d.2.2.2.2.1,
    rank := ofLe d.2.2.2.2.2.1, ev := d.2.2.2.2.2.2 }

/-- Memory seen from address `p` on. -/
def shift (mem : Nat → Byte) (p : Nat) : Nat → Byte := fun i => mem (p + i)

/-- Memory of which the part from `p` on has been replaced. -/
def unshift (mem sub : Nat → Byte) (p : Nat) : Nat → Byte :=
  fun i => if i < p then mem i else sub (i - p)

/-- `sendEvent` with `allocateSpace` having returned address `p`,
parallel_runtime.cc:345-351: `none` if packing throws. -/
def sendEvent {ev : Ty} (mem : Nat → Byte) (p : Nat) (e : Ipc ev) : Option (Nat → Byte) :=
  match Buf.putAll ⟨shift mem p, serSize e⟩ 0 (chunks (ipcTy ev) e.den) with
  | (_, none) => none
  | (b, some _) => some (unshift mem b.mem p)

/-- Events sent one after the other. -/
def sendAll {ev : Ty} (mem : Nat → Byte) (p : Nat) : List (Ipc ev) → Option (Nat → Byte)
  | [] => some mem
  | e :: es =>
    match sendEvent mem p e with
    | none => none
    | some mem' => sendAll mem' (p + serSize e) es

/-- `serializeSchedule`, event_manager.cc:221-234: the event and how far to move on. -/
def handleIncoming (c : Cmp) {ev : Ty} (mem : Nat → Byte) (p : Nat) (old : Ipc ev) : Option (Ipc ev × Nat) :=
  match unpack c ⟨shift mem p, 2 ^ 30⟩ (ipcTy ev) old.den 0 with
  | none => none
  | some (d, n) => some (Ipc.ofDen d, align64 n)

/-- The receive loop, clock_cycle_event_container.cc:134-140, `remaining` bytes from
address `p`.  `old` is the uninitialised `IpcEvent iev`.  `none`: an exception, or
`bytesRemaining` going below zero.  Every message is at least one byte long, so
`fuel = remaining` iterations are always enough. -/
def recvLoop (c : Cmp) {ev : Ty} (mem : Nat → Byte) (old : Ipc ev) :
    Nat → Nat → Nat → Option (List (Ipc ev))
  | _, _, 0 => some []
  | 0, _, _ + 1 => none
  | fuel + 1, p, remaining + 1 =>
    match handleIncoming c mem p old with
    | none => none
    | some (e, n) =>
      if n > remaining + 1 then none
      else
        match recvLoop c mem old fuel (p + n) (remaining + 1 - n) with
        | none => none
        | some es => some (e :: es)

/-! ### lemmas -/

theorem align64_ge (n : Nat) : n ≤ align64 n := by unfold align64; split <;> omega

theorem chunks_ipc {ev : Ty} (e : Ipc ev) :
    chunks (ipcTy ev) e.den = [le 4 (serSize e)] ++ ([le 4 e.thread] ++ ([e.t] ++ ([le 4 e.seqnum] ++
      ([le 8 e.link] ++ ([le 4 e.rank] ++ chunks ev e.ev))))) := rfl

theorem len_ipc {ev : Ty} (e : Ipc ev) (ht : e.t.length = 16) :
    (chunks (ipcTy ev) e.den).flatten.length = 40 + (chunks ev e.ev).flatten.length := by
  rw [chunks_ipc]
  simp only [List.flatten_append, List.length_append, List.flatten_cons, List.flatten_nil, List.append_nil,
    le_length, ht]
  omega

/-- the event can be sent, and received into `o` -/
structure Sendable (c : Cmp) {ev : Ty} (o : ev.den) (e : Ipc ev) : Prop where
  ev : Fits c ev o e.ev
  t : e.t.length = 16
  thread : e.thread < 2 ^ 32
  seqnum : e.seqnum < 2 ^ 32
  rank : e.rank < 2 ^ 32
  link : e.link < 2 ^ 64
  small : serSize e ≤ 2 ^ 30

theorem fits_ipc (c : Cmp) {ev : Ty} {old e : Ipc ev} (h : Sendable c old.ev e) :
    Fits c (ipcTy ev) old.den e.den := by
  show Fits c (.pair _ _) _ _
  refine ⟨le_length _ _, le_length _ _, h.t, le_length _ _, le_length _ _, le_length _ _, h.ev⟩

theorem ofDen_den (c : Cmp) {ev : Ty} {o : ev.den} {e : Ipc ev} (h : Sendable c o e) : Ipc.ofDen e.den = e := by
  cases e with
  | mk thread t seqnum link rank v =>
    have h1 := h.thread; have h2 := h.seqnum; have h3 := h.link; have h4 := h.rank
    simp only at h1 h2 h3 h4
    show Ipc.mk _ _ _ _ _ _ = _
    congr
    · exact ofLe_le _ _ (by omega)
    · exact ofLe_le _ _ (by omega)
    · exact ofLe_le _ _ (by omega)
    · exact ofLe_le _ _ (by omega)

/-- bytes `bs` are in memory at `p` -/
def HoldsM (mem : Nat → Byte) (p : Nat) (bs : List Byte) : Prop :=
  ∀ i (h : i < bs.length), mem (p + i) = bs[i]

theorem sendEvent_some (c : Cmp) {ev : Ty} {o : ev.den} {e : Ipc ev} (h : Sendable c o e) (mem : Nat → Byte) (p : Nat) :
    ∃ mem', sendEvent mem p e = some mem' ∧ HoldsM mem' p (chunks (ipcTy ev) e.den).flatten ∧
      ∀ i, i < p ∨ p + serSize e ≤ i → mem' i = mem i := by
  have hl := len_ipc e h.t
  have hs := size_chunks c ev o e.ev h.ev
  have hg : (chunks (ipcTy ev) e.den).flatten.length ≤ serSize e := by
    unfold serSize
    have := align64_ge (4 + 16 + 4 + 8 + 4 + 4 + size ev e.ev); omega
  obtain ⟨g1, g2, g3⟩ := putAll_some (chunks (ipcTy ev) e.den) ⟨shift mem p, serSize e⟩ 0
    (by simpa using hg)
  generalize hr : Buf.putAll ⟨shift mem p, serSize e⟩ 0 (chunks (ipcTy ev) e.den) = r at g1 g2 g3
  obtain ⟨b, q⟩ := r
  simp only at g1 g2 g3
  subst g1
  refine ⟨unshift mem b.mem p, by simp only [sendEvent, hr], ?_, ?_⟩
  · intro i hi
    show (if _ then _ else _) = _
    rw [if_neg (by omega), Nat.add_sub_cancel_left]
    have := g2.2 i hi
    simpa using this
  · intro i hi
    show (if _ then _ else _) = _
    by_cases hp : i < p
    · rw [if_pos hp]
    · rw [if_neg hp, g3 (i - p) (by omega)]
      show mem (p + (i - p)) = _
      congr 1; omega

theorem handle_holds (c : Cmp) {ev : Ty} {old e : Ipc ev} (h : Sendable c old.ev e) {mem : Nat → Byte} {p : Nat}
    (hm : HoldsM mem p (chunks (ipcTy ev) e.den).flatten) :
    handleIncoming c mem p old = some (e, serSize e) := by
  have hl := len_ipc e h.t
  have hs := size_chunks c ev old.ev e.ev h.ev
  have hg : serSize e = align64 (chunks (ipcTy ev) e.den).flatten.length := by
    unfold serSize; rw [hl, hs]
  unfold handleIncoming
  rw [unpack_holds c ⟨shift mem p, 2 ^ 30⟩ (ipcTy ev) old.den e.den 0 [] (fits_ipc c h) ?_]
  · simp only [ofDen_den c h, Nat.zero_add, ← hg]
  · rw [List.append_nil]
    refine ⟨?_, ?_⟩
    · have := h.small; have := align64_ge (chunks (ipcTy ev) e.den).flatten.length
      show _ ≤ 2 ^ 30
      omega
    · intro i hi
      show mem (p + (0 + i)) = _
      rw [Nat.zero_add]; exact hm i hi

theorem serSize_pos {ev : Ty} (e : Ipc ev) : 40 ≤ serSize e := by
  unfold serSize
  have := align64_ge (4 + 16 + 4 + 8 + 4 + 4 + size ev e.ev); omega

/-- each message lies in memory where its reservation says -/
def StreamAt {ev : Ty} (mem : Nat → Byte) : Nat → List (Ipc ev) → Prop
  | _, [] => True
  | p, e :: es => HoldsM mem p (chunks (ipcTy ev) e.den).flatten ∧ StreamAt mem (p + serSize e) es

theorem StreamAt.congr {ev : Ty} {mem mem' : Nat → Byte} (es : List (Ipc ev)) : ∀ {p : Nat},
    (∀ i, p ≤ i → mem' i = mem i) → StreamAt mem p es → StreamAt mem' p es := by
  induction es with
  | nil => intro p _ _; trivial
  | cons e es ih =>
    intro p h hs
    exact ⟨fun i hi => (h _ (by omega)).trans (hs.1 i hi), ih (fun i hi => h i (by omega)) hs.2⟩

theorem sendAll_some (c : Cmp) {ev : Ty} {o : ev.den} (es : List (Ipc ev)) : ∀ (mem : Nat → Byte) (p : Nat),
    (∀ e ∈ es, Sendable c o e) →
    ∃ mem', sendAll mem p es = some mem' ∧ StreamAt mem' p es ∧ (∀ i, i < p → mem' i = mem i) ∧
      ∀ i, p + (es.map serSize).sum ≤ i → mem' i = mem i := by
  induction es with
  | nil => intro mem p _; exact ⟨mem, rfl, trivial, fun _ _ => rfl, fun _ _ => rfl⟩
  | cons e es ih =>
    intro mem p h
    obtain ⟨m1, h1, h2, h3⟩ := sendEvent_some c (h e (List.mem_cons_self ..)) mem p
    obtain ⟨m2, g1, g2, g3, g4⟩ := ih m1 (p + serSize e) (fun x hx => h x (List.mem_cons_of_mem _ hx))
    have hl := len_ipc e (h e (List.mem_cons_self ..)).t
    have hs := size_chunks c ev o e.ev (h e (List.mem_cons_self ..)).ev
    have hg : (chunks (ipcTy ev) e.den).flatten.length ≤ serSize e := by
      unfold serSize
      have := align64_ge (4 + 16 + 4 + 8 + 4 + 4 + size ev e.ev); omega
    refine ⟨m2, by simp only [sendAll, h1, g1], ⟨?_, g2⟩, ?_, ?_⟩
    · intro i hi
      rw [g3 (p + i) (by omega)]
      exact h2 i hi
    · intro i hi
      rw [g3 i (by omega), h3 i (by omega)]
    · intro i hi
      simp only [List.map_cons, List.sum_cons] at hi
      rw [g4 i (by omega), h3 i (by omega)]

theorem recvLoop_stream (c : Cmp) {ev : Ty} {old : Ipc ev} (es : List (Ipc ev)) :
    ∀ (mem : Nat → Byte) (p fuel : Nat), (∀ e ∈ es, Sendable c old.ev e) → StreamAt mem p es →
    (es.map serSize).sum ≤ fuel →
    recvLoop c mem old fuel p (es.map serSize).sum = some es := by
  induction es with
  | nil => intro mem p fuel _ _ _; cases fuel <;> rfl
  | cons e es ih =>
    intro mem p fuel h hs hf
    have hp := serSize_pos e
    simp only [List.map_cons, List.sum_cons] at hf ⊢
    have hh := handle_holds c (h e (List.mem_cons_self ..)) hs.1
    cases fuel with
    | zero => omega
    | succ fuel =>
      obtain ⟨r, hr⟩ : ∃ r, serSize e + (es.map serSize).sum = r + 1 :=
        ⟨serSize e + (es.map serSize).sum - 1, by omega⟩
      rw [hr]
      simp only [recvLoop, hh]
      rw [if_neg (by omega), show r + 1 - serSize e = (es.map serSize).sum by omega]
      rw [ih mem (p + serSize e) fuel (fun x hx => h x (List.mem_cons_of_mem _ hx)) hs.2 (by omega)]

end SST.Serial
