import Verif.Serial.Message
set_option autoImplicit false
/-
C12  what is packed unpacks to the same value
C13  the size pass predicts the bytes written and read
C14  nothing outside the buffer is read or written
C15  messages packed one after the other come back as the same sequence
-/
namespace SST.Serial

/-- an order, for the examples: compare lengths of byte strings, nothing else -/
def cmp0 : Cmp where
  lt := fun t => match t with
    | .prim _ => fun a b => decide (ofLe a < ofLe b)
    | _ => fun _ _ => false
  asymm := by
    intro t a b h
    cases t <;> simp_all
    omega

/-- a map from 4-byte keys to lists of strings, next to an optional object of class 3 -/
def tyDemo : Ty :=
  .pair (.map (.prim 4) (.list .str)) (.ptr (fun i => i == 3) (fun _ => true) (fun _ => .pair .bool (.vec (.prim 1))))

/-- A value of the type `tyDemo`. -/
def vDemo : tyDemo.den :=
  (([(le 4 1, [[7], []]), (le 4 5, [[1, 2, 3]])] : List (List Byte × List (List Byte))),
   (Ptr.obj 3 ((true, [[9], [8]]) : Bool × List (List Byte)) : Ptr fun _ => Bool × List (List Byte)))

theorem fitsDemo : Fits cmp0 tyDemo (tyDemo.fresh true) vDemo := by
  refine ⟨⟨rfl, by decide, ?_, ?_⟩, rfl, by decide, trivial, by decide, ?_⟩
  · intro x hx
    rcases List.mem_cons.1 hx with rfl | hx
    · refine ⟨le_length _ _, rfl, by decide, ?_⟩
      intro y hy
      rcases List.mem_cons.1 hy with rfl | hy
      · show _ < _; decide
      rcases List.mem_cons.1 hy with rfl | hy
      · show _ < _; decide
      · cases hy
    rcases List.mem_cons.1 hx with rfl | hx
    · refine ⟨le_length _ _, rfl, by decide, ?_⟩
      intro y hy
      rcases List.mem_cons.1 hy with rfl | hy
      · show _ < _; decide
      · cases hy
    · cases hx
  · refine List.Pairwise.cons (fun y hy => ?_) (.cons (fun y hy => by cases hy) .nil)
    rcases List.mem_cons.1 hy with rfl | hy
    · rfl
    · cases hy
  · exact .cons rfl (.cons rfl .nil)

/-- **C12.** Pack any transferable value of any supported type into any buffer with room
for it, at any position; unpacking from there gives back the same value. -/
theorem C12_round_trip (c : Cmp) (t : Ty) (old v : t.den) (h : Fits c t old v) (b : Buf) (pos : Nat)
    (room : pos + size t v ≤ b.max) :
    ∃ b' q, b.putAll pos (chunks t v) = (b', some q) ∧ unpack c b' t old pos = some (v, q) := by
  rw [size_chunks c t old v h] at room
  obtain ⟨h1, h2, _⟩ := putAll_some (chunks t v) b pos room
  refine ⟨(b.putAll pos (chunks t v)).1, _, Prod.ext rfl h1, ?_⟩
  exact unpack_holds c _ t old v pos [] h (by rwa [List.append_nil])

example : ∃ b' q, Buf.putAll ⟨fun _ => 0, 100⟩ 3 (chunks tyDemo vDemo) = (b', some q) ∧
    unpack cmp0 b' tyDemo (tyDemo.fresh true) 3 = some (vDemo, q) :=
  C12_round_trip cmp0 tyDemo _ vDemo fitsDemo _ 3 (by decide)

/-- A value packed alone, received into `old`. -/
def transfer (c : Cmp) (t : Ty) (old v : t.den) : Option t.den :=
  let bs := (chunks t v).flatten
  match unpack c ⟨fun i => bs.getD i 0, bs.length⟩ t old 0 with
  | none => none
  | some (v', _) => some v'

/-- **C12, refuted as stated (1).** Unpacking a list into a list that is not empty keeps
the old elements: received into `[7]`, the list `[5]` arrives as `[7, 5]`. -/
theorem C12_nonempty_list_refuted :
    transfer cmp0 (.list (.prim 1)) ([[7]] : List (List Byte)) ([[5]] : List (List Byte))
      = some ([[7], [5]] : List (List Byte)) := by rfl

/-- **C12, refuted as stated (2).** A list of pointers to serializable objects that
contains a null pointer: the receiver gets an uninitialised pointer for it. -/
theorem C12_null_in_list_refuted :
    transfer cmp0 (.list (.ptr (fun _ => true) (fun _ => true) (fun _ => .bool))) ([] : List (Ptr fun _ => Bool))
      ([.null] : List (Ptr fun _ => Bool)) = some ([.wild] : List (Ptr fun _ => Bool)) := by rfl

/-- **C12, refuted as stated (3).** A buffer pointer that is null although its size
variable says 3: the size arrives as 0. -/
theorem C12_null_buffer_refuted :
    transfer cmp0 (.bin false 4 1) ((0, none) : Nat × Option (List Byte)) ((3, none) : Nat × Option (List Byte))
      = some ((0, none) : Nat × Option (List Byte)) := by rfl

/-- **C13.** For every transferable value, what the size pass reports is the number of
bytes the packing pass needs (it succeeds exactly if that many are left), writes, and the
unpacking pass reads. -/
theorem C13_size_exact (c : Cmp) (t : Ty) (old v : t.den) (h : Fits c t old v) (b : Buf) (pos : Nat)
    (hp : pos ≤ b.max) :
    (b.max < pos + size t v → (b.putAll pos (chunks t v)).2 = none) ∧
    (pos + size t v ≤ b.max →
      (b.putAll pos (chunks t v)).2 = some (pos + size t v) ∧
      unpack c (b.putAll pos (chunks t v)).1 t old pos = some (v, pos + size t v)) := by
  rw [size_chunks c t old v h]
  refine ⟨fun hl => putAll_none _ b pos hl hp, fun room => ?_⟩
  obtain ⟨h1, h2, _⟩ := putAll_some (chunks t v) b pos room
  exact ⟨h1, unpack_holds c _ t old v pos [] h (by rwa [List.append_nil])⟩

example : size tyDemo vDemo = 70 := by decide

/-- **C13, refuted as stated.** For a typed buffer pointer that is null with size 3 and
8-byte elements, the size pass reports 28 bytes and the packing pass writes 4. -/
theorem C13_null_buffer_refuted :
    size (.bin false 4 8) ((3, none) : Nat × Option (List Byte)) = 28 ∧
    (Buf.putAll ⟨fun _ => 0, 100⟩ 0 (chunks (.bin false 4 8) ((3, none) : Nat × Option (List Byte)))).2 = some 4 := by
  decide

/-- **C14 (packing).** Whatever is packed at whatever position, no byte before the position
and no byte beyond the end of the buffer changes, whether packing succeeds or reports an
overrun; and if it succeeds it ends inside the buffer. -/
theorem C14_pack_inside (t : Ty) (v : t.den) (b : Buf) (pos : Nat) (hp : pos ≤ b.max) :
    (∀ i, i < pos ∨ b.max ≤ i → (b.putAll pos (chunks t v)).1.mem i = b.mem i) ∧
    (∀ q, (b.putAll pos (chunks t v)).2 = some q → q ≤ b.max) := by
  refine ⟨fun i hi => (putAll_outside _ b pos i hi).1, ?_⟩
  intro q hq
  by_cases hl : b.max < pos + (chunks t v).flatten.length
  · rw [putAll_none _ b pos hl hp] at hq; cases hq
  · rw [(putAll_some _ b pos (by omega)).1] at hq
    injection hq; omega

/-- **C14 (unpacking).** Whatever bytes the buffer holds (a truncated or corrupt message
too), the outcome of unpacking depends only on the bytes inside the buffer, and if it
succeeds it ends inside the buffer. -/
theorem C14_unpack_inside (c : Cmp) (t : Ty) (old : t.den) (b b' : Buf) (pos : Nat) :
    (b.max = b'.max → (∀ i, i < b.max → b.mem i = b'.mem i) →
      unpack c b t old pos = unpack c b' t old pos) ∧
    (∀ v q, pos ≤ b.max → unpack c b t old pos = some (v, q) → pos ≤ q ∧ q ≤ b.max) :=
  ⟨fun h1 h2 => unpack_agree c ⟨h1, h2⟩ t old pos, fun v q hp he => unpack_le c t old pos v q hp he⟩

/-- a corrupt message (a list that claims 1000 elements) is reported as an overrun -/
example : unpack cmp0 ⟨fun i => (le 8 1000 ++ [1, 2, 3]).getD i 0, 11⟩ (.list (.prim 1)) [] 0 = none := by
  rfl

/-- **C14 (machine arithmetic).** With 64-bit counters the overrun check is exact as long
as fewer than 2^31 bytes are asked for and the buffer is smaller than 2^63 bytes. -/
theorem C14_check_exact (max pos : BitVec 64) (n : Nat) (hp : pos.toNat ≤ max.toNat) (hm : max.toNat < 2 ^ 63)
    (hn : n < 2 ^ 31) :
    (nextStr max pos (viaInt n) = none ↔ max.toNat < pos.toNat + n) ∧
    (∀ q, nextStr max pos (viaInt n) = some q → q.toNat = pos.toNat + n) := by
  have hv : (viaInt n).toNat = n := by
    unfold viaInt
    rw [BitVec.toNat_signExtend]
    have hmsb : (BitVec.ofNat 32 n).msb = false := by
      rw [BitVec.msb_eq_false_iff_two_mul_lt, BitVec.toNat_ofNat]; omega
    simp only [BitVec.toNat_setWidth, BitVec.toNat_ofNat, hmsb]
    simp
    omega
  have hs : (pos + viaInt n).toNat = pos.toNat + n := by
    rw [BitVec.toNat_add, hv]; omega
  unfold nextStr
  refine ⟨⟨?_, ?_⟩, ?_⟩
  · intro h
    split at h
    · rename_i hc; have := BitVec.lt_def.1 hc; omega
    · cases h
  · intro h
    rw [if_pos]
    exact BitVec.lt_def.2 (by omega)
  · intro q h
    split at h
    · cases h
    · injection h with h; subst h; exact hs

/-- **C14, refuted as stated.** With 2^31 bytes of a buffer of 2^31 bytes used up, no room
is left for a string of 2^31 bytes, yet the check lets it pass (moving the counter back
to 0), because its length becomes negative on the way through an `int`. -/
theorem C14_long_string_refuted :
    ∃ (max pos : BitVec 64) (n : Nat), max.toNat < pos.toNat + n ∧ pos.toNat ≤ max.toNat ∧
      nextStr max pos (viaInt n) = some 0 := by
  refine ⟨BitVec.ofNat 64 (2 ^ 31), BitVec.ofNat 64 (2 ^ 31), 2 ^ 31, by decide, by decide, by decide⟩

/-- a value together with its type and the variable it is received into -/
structure Item where
  t : Ty
  old : t.den
  v : t.den

/-- unpack several values in turn -/
def unpackItems (c : Cmp) (b : Buf) : List Item → Nat → Option (List ((t : Ty) × t.den) × Nat)
  | [], pos => some ([], pos)
  | x :: xs, pos =>
    match unpack c b x.t x.old pos with
    | none => none
    | some (v, p) =>
      match unpackItems c b xs p with
      | none => none
      | some (vs, q) => some (⟨x.t, v⟩ :: vs, q)

/-- **C15 (values).** Any sequence of transferable values, packed one after the other,
unpacks in the same order to the same values, whatever is packed or stored behind them. -/
theorem C15_sequence (c : Cmp) (xs : List Item) (h : ∀ x ∈ xs, Fits c x.t x.old x.v) (b : Buf) (pos : Nat)
    (rest : List (List Byte))
    (room : pos + ((xs.flatMap fun x => chunks x.t x.v) ++ rest).flatten.length ≤ b.max) :
    unpackItems c (b.putAll pos ((xs.flatMap fun x => chunks x.t x.v) ++ rest)).1 xs pos =
      some (xs.map fun x => ⟨x.t, x.v⟩, pos + (xs.map fun x => size x.t x.v).sum) := by
  have h2 := (putAll_some _ b pos room).2.1
  rw [List.flatten_append] at h2
  revert h2
  generalize (b.putAll pos ((xs.flatMap fun x => chunks x.t x.v) ++ rest)).1 = b'
  intro h2
  clear room
  induction xs generalizing pos with
  | nil => simp [unpackItems]
  | cons x xs ih =>
    have hx := h x (List.mem_cons_self ..)
    simp only [List.flatMap_cons, List.flatten_append, List.append_assoc] at h2
    simp only [unpackItems, unpack_holds c b' x.t x.old x.v pos _ hx h2]
    rw [ih (fun y hy => h y (List.mem_cons_of_mem _ hy)) _ h2.right]
    simp only [List.map_cons, List.sum_cons, size_chunks c x.t x.old x.v hx]
    congr 2; omega

example : unpackItems cmp0 (Buf.putAll ⟨fun _ => 0, 100⟩ 2
      (([⟨.prim 1, ([0] : List Byte), ([4] : List Byte)⟩, ⟨.bool, false, true⟩] : List Item).flatMap
        (fun x => chunks x.t x.v) ++ [[1, 2]])).1
      [⟨.prim 1, ([0] : List Byte), ([4] : List Byte)⟩, ⟨.bool, false, true⟩] 2 =
    some ([⟨.prim 1, ([4] : List Byte)⟩, ⟨.bool, true⟩], 7) :=
  C15_sequence cmp0 [⟨.prim 1, ([0] : List Byte), ([4] : List Byte)⟩, ⟨.bool, false, true⟩]
    (by intro x hx; simp only [List.mem_cons, List.not_mem_nil, or_false] at hx
        rcases hx with rfl | rfl
        · exact rfl
        · exact trivial) _ 2 [[1, 2]] (by decide)

/-- **C15 (events).** Events sent one after the other into a send buffer, each at the
64-byte-aligned size the sender computed for it, are read back by the receive loop as
exactly those events in that order, whatever else is in memory. -/
theorem C15_event_stream (c : Cmp) (ev : Ty) (old : Ipc ev) (es : List (Ipc ev))
    (h : ∀ e ∈ es, Sendable c old.ev e) (mem : Nat → Byte) (p : Nat) :
    ∃ mem', sendAll mem p es = some mem' ∧
      recvLoop c mem' old (es.map serSize).sum p (es.map serSize).sum = some es ∧
      (∀ i, i < p ∨ p + (es.map serSize).sum ≤ i → mem' i = mem i) := by
  obtain ⟨mem', h1, h2, h3, h4⟩ := sendAll_some c es mem p h
  refine ⟨mem', h1, recvLoop_stream c es mem' p _ h h2 (Nat.le_refl _), ?_⟩
  intro i hi
  rcases hi with hi | hi
  · exact h3 i hi
  · exact h4 i hi

/-- two events, one of them with a 20-byte string payload, meet the hypotheses -/
example : ∀ e ∈ ([⟨1, List.replicate 16 5, 7, 8, 9, ([] : List Byte)⟩,
      ⟨0, List.replicate 16 6, 8, 2 ^ 40, 9, List.replicate 20 3⟩] : List (Ipc .str)),
    Sendable (ev := .str) cmp0 ([] : List Byte) e := by
  intro e he
  simp only [List.mem_cons, List.not_mem_nil, or_false] at he
  rcases he with rfl | rfl
  all_goals
    constructor <;> first | decide | (show _ < _; decide)

end SST.Serial
