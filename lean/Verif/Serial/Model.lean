/-
Model of the sprockit serializer:
  sprockit/sprockit/serializer.h, serializer.cc, serialize.h, serialize_string.h,
  serialize_vector.h, serialize_list.h, serialize_set.h, serialize_map.h,
  serialize_array.h, serialize_serializable.cc, serialize_buffer_accessor.h,
  serialize_sizer.h, serialize_packer.h, serialize_unpacker.h.

`Ty` is the grammar of types for which `serialize<T>` exists.  `den` is the value kept in
memory, `size` / `chunks` / `unpack` are the three modes of the serializer.

Simplifications: a trivially copyable value is its bytes; integers are stored little
endian; a serializable class is the list of its members in `serialize_order`, written
with `pair`/`unit`, and classes do not refer to themselves; unordered_set/unordered_map
(whose iteration order is unspecified) and shared_ptr are not modelled; strings and
buffers being packed are shorter than 2^31 bytes (their length goes through an `int`; see
`viaInt` and `C14_long_string_refuted` for what happens beyond).
-/
namespace SST.Serial

/-- A `char` of a buffer. -/
abbrev Byte := BitVec 8

/-! ### Buffers -/

/-- Memory and the size of the buffer handed to `init`; the buffer is bytes `0..max-1`,
serialize_buffer_accessor.h:93-97.  What is beyond `max` belongs to somebody else. -/
structure Buf where
  mem : Nat → Byte
  max : Nat

/-- `ser_buffer_accessor::next` / `next_str` followed by reading the `n` bytes,
serialize_buffer_accessor.h:67-83: `none` is the thrown `ser_buffer_overrun`. -/
def Buf.get (b : Buf) (n pos : Nat) : Option (List Byte × Nat) :=
  if pos + n > b.max then none
  else some ((List.range n).map (fun i => b.mem (pos + i)), pos + n)

/-- The same followed by writing the bytes `c`, serialize_packer.h:56-59,
serializer.cc:66-71. -/
def Buf.put (b : Buf) (pos : Nat) (c : List Byte) : Option (Buf × Nat) :=
  if pos + c.length > b.max then none
  else some (⟨fun i => if pos ≤ i ∧ i < pos + c.length then c.getD (i - pos) 0 else b.mem i,
              b.max⟩, pos + c.length)

/-- Several writes in a row; memory keeps what was written before an overrun is thrown. -/
def Buf.putAll (b : Buf) (pos : Nat) : List (List Byte) → Buf × Option Nat
  | [] => (b, some pos)
  | c :: cs =>
    match b.put pos c with
    | none => (b, none)
    | some (b', pos') => b'.putAll pos' cs

/-- `next_str` on the machine: `size_` and `max_size_` are 64-bit `size_t`,
serialize_buffer_accessor.h:75-81; the new `size_`, or `none` if it throws. -/
def nextStr (max pos n : BitVec 64) : Option (BitVec 64) :=
  if pos + n > max then none else some (pos + n)

/-- An `int size = str.size()` passed on as `size_t`, serializer.cc:87-89. -/
def viaInt (n : Nat) : BitVec 64 := (BitVec.ofNat 32 n).signExtend 64

/-- The bytes of an `n`-byte unsigned integer, little endian. -/
def le : Nat → Nat → List Byte
  | 0, _ => []
  | n + 1, x => BitVec.ofNat 8 x :: le n (x / 256)

/-- The integer with the given little endian bytes. -/
def ofLe : List Byte → Nat
  | [] => 0
  | b :: bs => b.toNat + 256 * ofLe bs

/-! ### Types and values -/

/-- The types `serialize<T>` is defined for. -/
inductive Ty where
  /-- trivially copyable, `n` bytes: `serializer::primitive`, serializer.h:121-135 -/
  | prim (n : Nat)
  /-- `serialize<bool>`, serialize.h:67-75 -/
  | bool
  /-- `std::string`, serializer.cc:73-98 -/
  | str
  /-- `T[N]` with `sizeof(T) = w`: `serializer::array`, serializer.h:137-156 -/
  | arr (w n : Nat)
  /-- `array(T*&, Int&)` / `array(void*&, Int&)` with `sizeof(Int) = iw`, `sizeof(T) = w`:
  `serializer::binary`, serializer.h:155-207 -/
  | bin (isVoid : Bool) (iw w : Nat)
  | unit
  /-- consecutive members of a class -/
  | pair (a b : Ty)
  /-- `std::vector<T>`, serialize_vector.h:52-84 -/
  | vec (t : Ty)
  /-- `std::list<T>`, `std::deque<T>`, serialize_list.h:53-90 -/
  | list (t : Ty)
  /-- `std::set<T>`, serialize_set.h:52-89 -/
  | set (t : Ty)
  /-- `std::map<K,V>`, serialize_map.h:53-95 -/
  | map (k v : Ty)
  /-- pointer to a serializable class: `known i` says that class id `i` is registered,
  `cls i` are its members, `init i` says that its default constructor sets its pointer
  members to null; serialize_serializable.cc:53-91, serializable.cc:98-108 -/
  | ptr (known : Nat → Bool) (init : Nat → Bool) (cls : Nat → Ty)

/-- A pointer variable: null, not initialised, or pointing to an object of class `i`. -/
inductive Ptr (α : Nat → Type) where
  | null
  | wild
  | obj (i : Nat) (a : α i)

/-- Values.  A `bin` is the size variable and the buffer pointer with what it points to;
sets and maps are listed in iteration order. -/
def Ty.den : Ty → Type
  | .prim _ => List Byte
  | .bool => Bool
  | .str => List Byte
  | .arr _ _ => List Byte
  | .bin _ _ _ => Nat × Option (List Byte)
  | .unit => Unit
  | .pair a b => a.den × b.den
  | .vec t => List t.den
  | .list t => List t.den
  | .set t => List t.den
  | .map k v => List (k.den × v.den)
  | .ptr _ _ cls => Ptr (fun i => (cls i).den)

/-- A variable before anything is stored in it.  `nul = true`: value-initialised
(`vector::resize`, serialize_vector.h:71) or set by a constructor; `nul = false`: a local
variable `T t;` (serialize_list.h:84), whose pointers are not initialised.  (The bytes of
primitive values do not matter: they are overwritten.) -/
def Ty.fresh (nul : Bool) : (t : Ty) → t.den
  | .prim n => List.replicate n 0
  | .bool => false
  | .str => []
  | .arr w n => List.replicate (w * n) 0
  | .bin _ _ _ => (0, none)
  | .unit => ()
  | .pair a b => (a.fresh nul, b.fresh nul)
  | .vec _ => []
  | .list _ => []
  | .set _ => []
  | .map _ _ => []
  | .ptr _ _ _ => if nul then .null else .wild

/-- `operator<` of the element types of sets and maps. -/
structure Cmp where
  lt : (t : Ty) → t.den → t.den → Bool
  asymm : ∀ t a b, lt t a b = true → lt t b a = false

/-- `std::set::insert`. -/
def setInsert {α : Type} (lt : α → α → Bool) (a : α) : List α → List α
  | [] => [a]
  | x :: xs => if lt a x then a :: x :: xs else if lt x a then x :: setInsert lt a xs else x :: xs

/-- `m[k] = v` of `std::map`. -/
def mapAssign {α β : Type} (lt : α → α → Bool) (a : α) (b : β) : List (α × β) → List (α × β)
  | [] => [(a, b)]
  | x :: xs =>
    if lt a x.1 then (a, b) :: x :: xs
    else if lt x.1 a then x :: mapAssign lt a b xs
    else (x.1, b) :: xs

/-- the inserting loop, serialize_set.h:81-86 -/
def setInsertAll {α : Type} (lt : α → α → Bool) (old vs : List α) : List α :=
  vs.foldl (fun s v => setInsert lt v s) old

/-- the inserting loop, serialize_map.h:85-92 -/
def mapAssignAll {α β : Type} (lt : α → α → Bool) (old vs : List (α × β)) : List (α × β) :=
  vs.foldl (fun m e => mapAssign lt e.1 e.2 m) old

/-! ### The three modes -/

/-- SIZER mode: what `ser.size()` reports afterwards.  `sizeof(int) = 4`,
`sizeof(size_t) = sizeof(long) = 8`. -/
def size : (t : Ty) → t.den → Nat
  | .prim n, _ => n
  | .bool, _ => 4
  | .str, s => 4 + s.length
  | .arr w n, _ => w * n
  -- serializer.h:159-163 and 185-189: the void* version counts the payload only if the
  -- pointer is not null, the typed version always
  | .bin isVoid iw w, (sz, buf) => iw + (if isVoid && buf.isNone then 0 else sz * w)
  | .unit, _ => 0
  | .pair a b, (x, y) => size a x + size b y
  | .vec t, vs => 8 + (vs.map (size t)).sum
  | .list t, vs => 8 + (vs.map (size t)).sum
  | .set t, vs => 8 + (vs.map (size t)).sum
  | .map k v, vs => 8 + (vs.map (fun e => size k e.1 + size v e.2)).sum
  | .ptr _ _ cls, .obj i a => 8 + size (cls i) a
  | .ptr _ _ _, _ => 8

/-- PACK mode: the pieces written one after the other. -/
def chunks : (t : Ty) → t.den → List (List Byte)
  | .prim _, bs => [bs]
  | .bool, b => [le 4 (if (show Bool from b) then 1 else 0)]
  | .str, s => [le 4 s.length, s]
  | .arr _ _, bs => [bs]
  | .bin _ iw w, (sz, buf) =>
    match buf with
    | some data => if sz = 0 then [le iw 0] else [le iw sz, data.take (sz * w)]
    | none => [le iw 0]
  | .unit, _ => []
  | .pair a b, (x, y) => chunks a x ++ chunks b y
  | .vec t, vs => le 8 vs.length :: vs.flatMap (chunks t)
  | .list t, vs => le 8 vs.length :: vs.flatMap (chunks t)
  | .set t, vs => le 8 vs.length :: vs.flatMap (chunks t)
  | .map k v, vs => le 8 vs.length :: vs.flatMap (fun e => chunks k e.1 ++ chunks v e.2)
  | .ptr _ _ cls, .obj i a => le 8 i :: chunks (cls i) a
  | .ptr _ _ _, _ => [le 8 (2 ^ 64 - 1)]

/-- A loop unpacking into each element of a list in turn. -/
def each {α β : Type} (f : α → Nat → Option (β × Nat)) : List α → Nat → Option (List β × Nat)
  | [], pos => some ([], pos)
  | a :: as, pos =>
    match f a pos with
    | none => none
    | some (x, pos') =>
      match each f as pos' with
      | none => none
      | some (xs, pos'') => some (x :: xs, pos'')

/-- UNPACK mode: unpack a `t` from position `pos` into a variable holding `old`.
`none`: an exception or abort (overrun; negative string or buffer length, on which
`resize`/`new` throw, serializer.cc:60, 80; unknown class id, serializable.cc:102-105;
and more than `2^31` elements, where the `int` loop counters overflow,
serialize_vector.h:76, serialize_list.h:83). -/
def unpack (c : Cmp) (b : Buf) : (t : Ty) → t.den → Nat → Option (t.den × Nat)
  | .prim n, _, pos => b.get n pos
  | .bool, _, pos =>
    match b.get 4 pos with
    | none => none
    | some (bs, p) => some (decide (ofLe bs ≠ 0), p)
  | .str, _, pos =>
    match b.get 4 pos with
    | none => none
    | some (bs, p) => if ofLe bs ≥ 2 ^ 31 then none else b.get (ofLe bs) p
  | .arr w n, _, pos => b.get (w * n) pos
  | .bin _ iw w, _, pos =>
    match b.get iw pos with
    | none => none
    | some (bs, p) =>
      -- unpack_buffer(&buffer, int), serializer.cc:52-64
      let n := (ofLe bs * w) % 2 ^ 32
      if n = 0 then some ((ofLe bs, none), p)
      else if n ≥ 2 ^ 31 then none
      else
        match b.get n p with
        | none => none
        | some (data, q) => some ((ofLe bs, some data), q)
  | .unit, _, pos => some ((), pos)
  | .pair s t, (x, y), pos =>
    match unpack c b s x pos with
    | none => none
    | some (x', p) =>
      match unpack c b t y p with
      | none => none
      | some (y', q) => some ((x', y'), q)
  | .vec t, old, pos =>
    match b.get 8 pos with
    | none => none
    | some (bs, p) =>
      let s := ofLe bs
      if s > 2 ^ 31 then none
      else each (unpack c b t) (old.take s ++ List.replicate (s - old.length) (t.fresh true)) p
  | .list t, old, pos =>
    match b.get 8 pos with
    | none => none
    | some (bs, p) =>
      if ofLe bs > 2 ^ 31 then none
      else
        match each (unpack c b t) (List.replicate (ofLe bs) (t.fresh false)) p with
        | none => none
        | some (vs, q) => some ((show List t.den from old) ++ vs, q)
  | .set t, old, pos =>
    match b.get 8 pos with
    | none => none
    | some (bs, p) =>
      if ofLe bs > 2 ^ 31 then none
      else
        match each (unpack c b t) (List.replicate (ofLe bs) (t.fresh false)) p with
        | none => none
        | some (vs, q) => some (setInsertAll (c.lt t) old vs, q)
  | .map k v, old, pos =>
    match b.get 8 pos with
    | none => none
    | some (bs, p) =>
      if ofLe bs > 2 ^ 31 then none
      else
        match each (fun (e : k.den × v.den) pos =>
            match unpack c b k e.1 pos with
            | none => none
            | some (x, p) =>
              match unpack c b v e.2 p with
              | none => none
              | some (y, q) => some ((x, y), q))
            (List.replicate (ofLe bs) (k.fresh false, v.fresh false)) p with
        | none => none
        | some (vs, q) => some (mapAssignAll (c.lt k) old vs, q)
  | .ptr known init cls, old, pos =>
    match b.get 8 pos with
    | none => none
    | some (bs, p) =>
      if ofLe bs = 2 ^ 64 - 1 then some (old, p)
      else
        -- get_serializable takes a uint32_t
        let i := ofLe bs % 2 ^ 32
        if known i then
          match unpack c b (cls i) ((cls i).fresh (init i)) p with
          | none => none
          | some (a, q) => some (.obj i a, q)
        else none

end SST.Serial
