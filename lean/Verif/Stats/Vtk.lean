/-
The statistic of traffic for pictures of the network: sstmac/hardware/vtk/vtk_stats.{h,cc}.

Colours are values of any type `α` with a zero, an average and a test for zero, so that nothing depends on floating
point.  Not modelled: the geometry and the files of the VTK library, the union of switches.
-/
set_option autoImplicit false
namespace Verif.Stats.Vtk

/-! ### Identifiers -/

/-- `vtk_port`, vtk_stats.h:151-171: both are 16 bits wide. -/
structure Port where
  id : BitVec 16
  port : BitVec 16
deriving DecidableEq

/-- `vtk_link`, vtk_stats.h:103-149. -/
structure Link where
  id1 : BitVec 16
  port1 : BitVec 16
  id2 : BitVec 16
  port2 : BitVec 16
deriving DecidableEq

/-- `id32`, vtk_stats.h:165-170. -/
def Port.id32 (p : Port) : BitVec 32 := (p.id.setWidth 32 <<< 16) ||| p.port.setWidth 32

/-- `vtk_port::construct`, vtk_stats.h:157-163. -/
def Port.construct (x : BitVec 32) : Port := ⟨((0xffff0000#32 &&& x) >>> 16).setWidth 16, (0x0000ffff#32 &&& x).setWidth 16⟩

/-- `id64`, vtk_stats.h:118-130. -/
def Link.id64 (l : Link) : BitVec 64 :=
  let side1 : BitVec 32 := (l.id1.setWidth 32 <<< 16) ||| l.port1.setWidth 32
  let side2 : BitVec 32 := (l.id2.setWidth 32 <<< 16) ||| l.port2.setWidth 32
  (side1.setWidth 64 <<< 32) ||| side2.setWidth 64

/-- `vtk_link::construct`, vtk_stats.h:132-148. -/
def Link.construct (x : BitVec 64) : Link :=
  let upper : BitVec 32 := ((0xffffffff00000000#64 &&& x) >>> 32).setWidth 32
  let lower : BitVec 32 := (0x00000000ffffffff#64 &&& x).setWidth 32
  ⟨((0xffff0000#32 &&& upper) >>> 16).setWidth 16, (0x0000ffff#32 &&& upper).setWidth 16,
   ((0xffff0000#32 &&& lower) >>> 16).setWidth 16, (0x0000ffff#32 &&& lower).setWidth 16⟩

/-- The link of a connection, vtk_stats.cc:130-134: switches and ports are integers that are cut to 16 bits. -/
def linkOf (src outport dst inport : Nat) : Link := ⟨.ofNat 16 src, .ofNat 16 outport, .ofNat 16 dst, .ofNat 16 inport⟩

/-! ### Filters and levels -/

/-- The filters, vtk_stats.cc:425-433: `none` if the loop reads beyond the end of the list. -/
def filters : List Int → Option (List (Int × Int))
  | [] => some []
  | [_] => none
  | a :: b :: r => (filters r).map ((a, b) :: ·)

/-- `configure`, vtk_stats.cc:495-512. -/
def active (fs : List (Int × Int)) (id : Int) : Bool := fs.isEmpty || fs.any (fun p => p.1 ≤ id && id ≤ p.2)

/-- The level of an intensity, vtk_stats.cc:568-574: the last threshold that it reaches. -/
def level (levels : List Int) (x : Int) : Nat :=
  match levels with
  | [] => 0
  | t :: ts =>
    let r := level ts x
    if r ≠ 0 then r + 1 else if t ≤ x then 1 else 0

/-! ### Collection -/

/-- An event of `sorted_event_list_`: its place in the order and its colour. -/
structure Event (α : Type) where
  time : Nat
  port : Nat
  color : α

/-- `port_state`, vtk_stats.h:240-256: `current_color` and `active_vtk_color` are not set by its constructor. -/
structure PortState (α : Type) where
  last : Nat
  pending : Nat
  accumulated : α
  current : α
  shown : α

/-- The state of a switch. -/
structure S (α : Type) where
  ports : Nat → PortState α
  events : List (Event α)

/-- The operations on colours. -/
structure Ops (α : Type) where
  zero : α
  /-- the average of two colours with the lengths of their times, vtk_stats.cc:536-540 -/
  avg : α → Nat → α → Nat → Nat → α
  /-- `fabs(..) > 1e-12`, vtk_stats.cc:469 -/
  nonzero : α → Bool

/-- After construction: what is in the memory of `current_color` and `active_vtk_color` is arbitrary. -/
def init {α : Type} (o : Ops α) (cur shown : Nat → α) : S α := ⟨fun p => ⟨0, 0, o.zero, cur p, shown p⟩, []⟩

/-- Whether there is an event at this place. -/
def has {α : Type} (es : List (Event α)) (t p : Nat) : Bool := es.any (fun e => e.time = t && e.port = p)

/-- `emplace` of the set: nothing if there is an event already. -/
def emplace {α : Type} (es : List (Event α)) (t p : Nat) (c : α) : List (Event α) := if has es t p then es else es ++ [⟨t, p, c⟩]

/-- The same with the colour overwritten, vtk_stats.cc:524-529. -/
def overwrite {α : Type} (es : List (Event α)) (t p : Nat) (c : α) : List (Event α) :=
  if has es t p then es.map (fun e => if e.time = t && e.port = p then { e with color := c } else e) else es ++ [⟨t, p, c⟩]

/-- `collect_new_color`, vtk_stats.cc:514-560, of an active switch and a port that exists. -/
def collect {α : Type} (o : Ops α) (minInterval : Nat) (s : S α) (t p : Nat) (c : α) : S α :=
  let q := s.ports p
  let put := fun (q' : PortState α) => fun x => if x = p then q' else s.ports x
  if minInterval = 0 then ⟨put { q with shown := c }, overwrite s.events t p c⟩
  else
    let n := if t ≠ q.pending then o.avg q.current (t - q.last) q.accumulated (q.last - q.pending) (t - q.pending) else c
    if minInterval ≤ t - q.pending then
      ⟨put { q with pending := t, last := t, accumulated := o.zero, shown := n }, emplace s.events (if q.pending = 0 then q.last else q.pending) p n⟩
    else ⟨put { q with last := t, accumulated := n }, s.events⟩

/-- A history of collections. -/
def collects {α : Type} (o : Ops α) (minInterval : Nat) (s : S α) (h : List (Nat × Nat × α)) : S α :=
  h.foldl (fun s e => collect o minInterval s e.1 e.2.1 e.2.2) s

/-- `finalize`, vtk_stats.cc:453-475, without levels: `none` if it aborts. -/
def finalize {α : Type} (o : Ops α) (s : S α) (t : Nat) : List Nat → Option (S α)
  | [] => some s
  | p :: ps =>
    let s' := if (s.ports p).last ≠ 0 then collect o 0 s t p o.zero else s
    if o.nonzero (s'.ports p).shown then none else finalize o s' t ps

end Verif.Stats.Vtk
