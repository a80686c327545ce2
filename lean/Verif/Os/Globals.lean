/-
Global variables of simulated processes (sstmac/software/process/global.cc, global.h, app.cc, thread_info.cc).

Each process has a segment with its own copies. A byte that nothing has been written to is `none`. Sizes and offsets
are `int`s, taken as natural numbers.
-/
set_option autoImplicit false
namespace SST.Os

/-- The contents of an allocation. -/
abbrev Buf := List (Option Nat)

/-- How an operation can fail. -/
inductive GErr
  /-- The simulation aborts with a message. -/
  | abort
  /-- The doubling loop never ends. -/
  | loop
  /-- Bytes outside an allocation are read or written. -/
  | bounds
deriving DecidableEq, Repr

/-- `GlobalVariableContext`, global.h:58-112, with the segments of the processes by number. -/
structure GCtx where
  /-- `stackOffset` -/
  off : Nat
  /-- `allocSize_` -/
  alloc : Nat
  /-- `globalInits` -/
  image : Option Buf
  /-- `initFxns`; the function is what it writes to the variable. -/
  inits : List (Nat × List Nat)
  /-- segments that exist -/
  segs : List (Nat × Buf)
  /-- `activeGlobalMaps_` -/
  active : List Nat
deriving DecidableEq, Repr

/-- `GlobalVariableContext::init`, global.cc:82-88. -/
def GCtx.init : GCtx := ⟨0, 4096, none, [], [], []⟩

/-- `offsetIncrement`, global.cc:101-102. -/
def increment (size : Nat) : Nat := if size % 4 ≠ 0 then size + (4 - size % 4) else size

/-- The doubling loop, global.cc:105-108. -/
def grow (need alloc : Nat) : Option Nat :=
  if need ≤ alloc then some alloc
  else if alloc = 0 then none
  else grow need (2 * alloc)
termination_by need - alloc

/-- `memcpy` into an allocation at an offset. -/
def Buf.write (b : Buf) (o : Nat) (bytes : Buf) : Except GErr Buf :=
  if o + bytes.length ≤ b.length then .ok (b.take o ++ bytes ++ b.drop (o + bytes.length)) else .error .bounds

/-- The first `n` bytes of an allocation. -/
def Buf.read (b : Buf) (n : Nat) : Except GErr Buf := if n ≤ b.length then .ok (b.take n) else .error .bounds

/-- `new char[n]`. -/
def fresh (n : Nat) : Buf := List.replicate n none

/-- `GlobalVariableContext::append`, global.cc:96-132; the offset. -/
def GCtx.append (s : GCtx) (size : Nat) : Except GErr (Nat × GCtx) :=
  match grow (increment size + s.off) s.alloc with
  | none => .error .loop
  | some alloc =>
    let realloc := decide (s.alloc < increment size + s.off)
    if realloc && !s.active.isEmpty then .error .abort
    else
      match s.image with
      | none => .ok (s.off, { s with off := s.off + increment size, alloc := alloc, image := some (fresh alloc) })
      | some old =>
        if realloc then do
          let contents ← old.read s.off
          let img ← (fresh alloc).write 0 contents
          .ok (s.off, { s with off := s.off + increment size, alloc := alloc, image := some img })
        else .ok (s.off, { s with off := s.off + increment size, alloc := alloc })

/-- `initFxns[offset] = fxn`, global.cc:90-94: a map in the order of the offsets. -/
def setInit (o : Nat) (bytes : List Nat) : List (Nat × List Nat) → List (Nat × List Nat)
  | [] => [(o, bytes)]
  | (o', b') :: l => if o < o' then (o, bytes) :: (o', b') :: l else if o = o' then (o, bytes) :: l else (o', b') :: setInit o bytes l

/-- The constructor of a global variable with an initial value (`global<T>`, global.h:159-169, 200-212, and
`CppGlobalRegisterGuard`, global.cc:134-145) or without one; the offset. -/
def GCtx.declare (s : GCtx) (size : Nat) (init : Option (List Nat)) : Except GErr (Nat × GCtx) := do
  let (o, s) ← s.append size
  match init with
  | none => .ok (o, s)
  | some bytes => .ok (o, { s with inits := setInit o bytes s.inits })

/-- `callInitFxns`, global.cc:156-164. -/
def callInits (inits : List (Nat × List Nat)) (b : Buf) : Except GErr Buf :=
  inits.foldlM (fun b p => b.write p.1 (p.2.map some)) b

/-- `get_data_segment`, app.cc:126-143: a segment for a new process; `param`: the size in its parameters. With size 0
there is none. -/
def GCtx.newSegment (s : GCtx) (id : Nat) (param : Option Nat) : Except GErr GCtx :=
  let alloc := param.getD s.alloc
  let s := { s with alloc := alloc }
  if alloc = 0 then .ok s
  else do
    let contents ← (s.image.getD []).read s.off
    let b ← (fresh alloc).write 0 contents
    .ok { s with segs := (id, b) :: s.segs }

/-- The segment of a process. -/
def GCtx.seg (s : GCtx) (id : Nat) : Option Buf := (s.segs.find? fun p => p.1 = id).map (·.2)

/-- The segments with that of one process changed. -/
def setSeg (id : Nat) (b : Buf) (segs : List (Nat × Buf)) : List (Nat × Buf) := segs.map fun p => if p.1 = id then (id, b) else p

/-- The start of a process, thread_info.cc:141-148. Nothing happens without a segment. -/
def GCtx.activate (s : GCtx) (id : Nat) : Except GErr GCtx :=
  match s.seg id with
  | none => .ok s
  | some b => do
    let b ← callInits s.inits b
    .ok { s with active := if id ∈ s.active then s.active else id :: s.active, segs := setSeg id b s.segs }

/-- The end of a thread of a process, thread_info.cc:160-176. -/
def GCtx.deactivate (s : GCtx) (id : Nat) : GCtx := { s with active := s.active.erase id }

/-- The copies of `initGlobalSpace` into the segments in use, global.cc:177-180. -/
def writeActive (bytes : List Nat) (o : Nat) (active : List Nat) : List (Nat × Buf) → Except GErr (List (Nat × Buf))
  | [] => .ok []
  | (id, b) :: l => do
    let b ← if id ∈ active then b.write o (bytes.map some) else .ok b
    let l ← writeActive bytes o active l
    .ok ((id, b) :: l)

/-- `initGlobalSpace`, global.cc:174-185: a variable of a library loaded later gets its value. -/
def GCtx.initSpace (s : GCtx) (bytes : List Nat) (o : Nat) : Except GErr GCtx := do
  let segs ← writeActive bytes o s.active s.segs
  let img ← (s.image.getD []).write o (bytes.map some)
  .ok { s with segs := segs, image := some img }

/-- What can happen to the global variables. -/
inductive GOp
  | declare (size : Nat) (init : Option (List Nat))
  | newSegment (id : Nat) (param : Option Nat)
  | activate (id : Nat)
  | deactivate (id : Nat)
  | initSpace (bytes : List Nat) (o : Nat)

/-- One operation. -/
def GCtx.step (s : GCtx) : GOp → Except GErr GCtx
  | .declare size init => (s.declare size init).map (·.2)
  | .newSegment id param => s.newSegment id param
  | .activate id => s.activate id
  | .deactivate id => .ok (s.deactivate id)
  | .initSpace bytes o => s.initSpace bytes o

/-- `operator++(int)` of `global<T>`, global.h:246-251: the parameter, which is 0, hides the offset of the variable. The
offset of the variable that is incremented. -/
def postIncrement (_offset : Nat) : Nat := 0

/-- `operator++()`, global.h:240-244. -/
def preIncrement (offset : Nat) : Nat := offset

end SST.Os
