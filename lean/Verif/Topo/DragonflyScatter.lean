import Verif.Topo.DragonflyValiant
/-
Model of the dragonfly routers that spread packets over many paths without looking at queues:
`DragonflyScatterRouter` and `DragonflyRotateRouter`,
sstmac/hardware/router/dragonfly_routing.cc:569-813.
-/
set_option autoImplicit false
namespace SST.Topo.Dragonfly
open SST.Topo

/-- A cyclic position in a set of ports: the port there, and the position `++` and the wrap at the
end lead to (`destination::nextPort`, dragonfly_routing.cc:592-599, and lines 798-803).
`none`: the set is empty, the iterator points nowhere. -/
def nextPort (ports : List Nat) (i : Nat) : Option (Nat × Nat) :=
  match ports[i]? with
  | none => none
  | some p => some (p, if i + 1 = ports.length then 0 else i + 1)

/-! ### Rotate -/

/-- `num_group_hops` (two bits) and `num_hops` (four bits), dragonfly_routing.cc:75-78. -/
structure RHdr where
  ng : Nat
  nhops : Nat
deriving DecidableEq, Repr

/-- `port_rotater_` as a position, and `group_port_rotaters_`. -/
structure RRot where
  pos : Nat
  grot : Nat → Nat

/-- `valid_ports_`, dragonfly_routing.cc:741-752; the ports are inserted in ascending order. -/
def validPorts (P : Par) (W : Wiring) (me : Nat) : List Nat :=
  ((W.connected (computeA P me) (computeG P me)).zipIdx.filter fun x => computeG P x.1 ≠ computeG P me).map fun x => x.2 + P.a

/-- `DragonflyRotateRouter::numVC`, dragonfly_routing.cc:761-763. -/
def rotVC : Nat := 4

/-- `DragonflyRotateRouter::route`, dragonfly_routing.cc:769-808, without the optional check of
`num_hops`. -/
def rroute (P : Par) (W : Wiring) (static : Bool) (me node : Nat) (h : RHdr) (st : RRot) : Option (Nat × Nat × RHdr × RRot) :=
  let ej := node / P.conc
  if ej = me then some (P.a + P.h + node % P.conc, 0, h, st)
  else if 1 ≤ h.ng then
    (toSwitch P W static me ej h.ng st.grot).map fun x => (x.1, h.nhops, ⟨x.2.1, (h.nhops + 1) % 16⟩, { st with grot := x.2.2 })
  else if computeG P ej = computeG P me then some (computeA P ej, h.nhops, ⟨h.ng, (h.nhops + 1) % 16⟩, st)
  else
    match nextPort (validPorts P W me) st.pos with
    | none => none
    | some x => some (x.1, h.nhops, ⟨(h.ng + 1) % 4, (h.nhops + 1) % 16⟩, { st with pos := x.2 })

/-- The counters a router can have. -/
inductive RReach (P : Par) (W : Wiring) (static : Bool) (me : Nat) : RRot → Prop
  | init : RReach P W static me ⟨0, rot0 P W me⟩
  | route {st : RRot} (hr : RReach P W static me st) {node : Nat} {h : RHdr} {p vc : Nat} {h' : RHdr} {st' : RRot}
      (e : rroute P W static me node h st = some (p, vc, h', st')) : RReach P W static me st'

/-- The router as a relation. -/
def rrouter (P : Par) (W : Wiring) (static : Bool) : Router RHdr :=
  fun me node h p vc h' => ∃ st st', RReach P W static me st ∧ rroute P W static me node h st = some (p, vc, h', st')

/-! ### Scatter -/

/-- `followPath` and `followPathHelper`, dragonfly_routing.cc:636-672, from switch `sid` after `k`
hops, `gh` of them between groups; `n` is `3 - k`.  The triples are hops, switch and first port
for which the helper is called. -/
def follow (P : Par) (W : Wiring) : Nat → Nat → Nat → Nat → Option Nat → List (Nat × Nat × Nat)
  | 0, _, _, _, _ => []
  | n + 1, sid, k, gh, port =>
    (if gh = 0 then (W.connected (computeA P sid) (computeG P sid)).zipIdx.flatMap fun x =>
        (k + 1, x.1, port.getD (x.2 + P.a)) :: follow P W n x.1 (k + 1) (gh + 1) (some (port.getD (x.2 + P.a)))
      else []) ++
    ((List.range P.a).filter fun aa => aa ≠ computeA P sid).flatMap fun aa =>
      (k + 1, getUid P aa (computeG P sid), port.getD aa) ::
        follow P W n (getUid P aa (computeG P sid)) (k + 1) gh (some (port.getD aa))

/-- `destination_table_[h][sid].ports`, in ascending order: `followPathHelper` inserts the port of
a path of `k` hops for all `h ≥ k`, but not a port to another group for a switch of the own. -/
def table (P : Par) (W : Wiring) (me h sid : Nat) : List Nat :=
  (List.range (P.a + P.h)).filter fun p => (follow P W 3 me 0 0 none).any fun e =>
    e.1 ≤ h && e.2.1 == sid && e.2.2 == p && (p < P.a || computeG P sid != computeG P me)

/-- `num_hops` (four bits), dragonfly_routing.cc:578-581, and the switch of `fromaddr`, which is
the first router that sees the packet: `none` before that. -/
structure SHdr where
  src : Option Nat
  nhops : Nat
deriving DecidableEq, Repr

/-- The header of a new packet. -/
def SHdr.init : SHdr := ⟨none, 0⟩

/-- `DragonflyScatterRouter::numVC`, dragonfly_routing.cc:674-676. -/
def scatVC : Nat := 3

/-- `max_hops` in `route`, dragonfly_routing.cc:704. -/
def scatMax (P : Par) (inj ej : Nat) : Nat := if computeG P inj = computeG P ej then 2 else 3

/-- `DragonflyScatterRouter::route`, dragonfly_routing.cc:682-721; `st h sid` is the position of
`destination_table_[h][sid].rotater`.  `none`: no port, or a table that does not exist. -/
def sroute (P : Par) (W : Wiring) (me node : Nat) (h : SHdr) (st : Nat → Nat → Nat) : Option (Nat × Nat × SHdr × (Nat → Nat → Nat)) :=
  let ej := node / P.conc
  if ej = me then some (P.a + P.h + node % P.conc, 0, h, st)
  else
    let inj := h.src.getD me
    let maxHops := scatMax P inj ej
    if maxHops ≤ h.nhops then none
    else
      match nextPort (table P W me (maxHops - h.nhops) ej) (st (maxHops - h.nhops) ej) with
      | none => none
      | some x => some (x.1, h.nhops, ⟨some inj, (h.nhops + 1) % 16⟩,
          fun i j => if i = maxHops - h.nhops ∧ j = ej then x.2 else st i j)

/-- The counters a router can have. -/
inductive SReach (P : Par) (W : Wiring) (me : Nat) : (Nat → Nat → Nat) → Prop
  | init : SReach P W me (fun _ _ => 0)
  | route {st : Nat → Nat → Nat} (hr : SReach P W me st) {node : Nat} {h : SHdr} {p vc : Nat} {h' : SHdr} {st' : Nat → Nat → Nat}
      (e : sroute P W me node h st = some (p, vc, h', st')) : SReach P W me st'

/-- The router as a relation. -/
def srouter (P : Par) (W : Wiring) : Router SHdr :=
  fun me node h p vc h' => ∃ st st', SReach P W me st ∧ sroute P W me node h st = some (p, vc, h', st')

end SST.Topo.Dragonfly
