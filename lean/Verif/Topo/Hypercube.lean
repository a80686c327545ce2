import Verif.Topo.Net
import Verif.Topo.Coords
/-
Model of the hypercube topology and its routers:
sstmac/hardware/topology/hypercube.{h,cc}, sstmac/hardware/router/hypercube_routing.cc.
Switch numbers and coordinates are those of the torus (`Hypercube` derives from `Torus`).
-/
set_option autoImplicit false
namespace SST.Topo.Hypercube
open SST.Topo

/-- Sum of the dimension sizes; `total_ports`, hypercube.cc:69-72, `inj_offset_`,
hypercube_routing.cc:70-73. -/
def sum : List Nat → Nat
  | [] => 0
  | D :: ds => D + sum ds

/-- `dim_to_outport_`, hypercube.cc:57-63: where the ports of dimension `k` start. -/
def off : List Nat → Nat → Nat
  | _, 0 => 0
  | [], _ + 1 => 0
  | D :: ds, k + 1 => D + off ds k

/-- The loops of `Hypercube::connectedOutports`, hypercube.cc:154-186.  `o` is
`dim_to_outport_[dim]`, `st` is `dim_stride`; the destination is a 32-bit `SwitchId`. -/
def connGo (src : Nat) : Nat → Nat → List Nat → List Conn
  | _, _, [] => []
  | o, st, D :: ds =>
    let srcX := (src / st) % D
    (((List.range D).filter fun dstX => dstX != srcX).map fun (dstX : Nat) =>
      { src := src, dst := toU32 ((src : Int) + ((dstX : Int) - (srcX : Int)) * (st : Int)), outport := o + dstX, inport := o + srcX }) ++
    connGo src (o + D) (st * D) ds

/-- `Hypercube::endpointsConnectedToInjectionSwitch`, hypercube.cc:65-82. -/
def inj (dims : List Nat) (conc s : Nat) : List (Nat × Nat) :=
  (List.range conc).map fun i => (s * conc + i, sum dims + i)

/-- The network. -/
def net (dims : List Nat) (conc : Nat) : Net where
  size := size dims
  conns s := connGo s 0 1 dims
  inj := inj dims conc

/-- The loop of `Hypercube::minimalRouteToSwitch`, hypercube.cc:84-103.  `none`: the header is
left as it was. -/
def minimalGo (src dst : Nat) : Nat → Nat → List Nat → Option Nat
  | _, _, [] => none
  | o, div, D :: ds =>
    let srcX := (src / div) % D
    let dstX := (dst / div) % D
    if srcX ≠ dstX then some (o + dstX) else minimalGo src dst (o + D) (div * D) ds

/-- The loop of `Hypercube::minimalDistance`, hypercube.cc:105-122. -/
def distGo (src dst : Nat) : Nat → List Nat → Nat
  | _, [] => 0
  | div, D :: ds => (if (src / div) % D ≠ (dst / div) % D then 1 else 0) + distGo src dst (div * D) ds

/-- `Hypercube::minimalDistance`, hypercube.cc:105-122. -/
def minimalDistance (dims : List Nat) (src dst : Nat) : Nat := distGo src dst 1 dims

/-- `HypercubeMinimalRouter::route`, hypercube_routing.cc:85-97; it keeps nothing in the
header. -/
def route (dims : List Nat) (conc me node : Nat) : Option (Nat × Nat) :=
  if node / conc = me then some (node % conc + sum dims, 0)
  else (minimalGo me (node / conc) 0 1 dims).map fun p => (p, 0)

/-- The minimal router as a relation. -/
def router (dims : List Nat) (conc : Nat) : Router Unit :=
  fun me node _ p vc _ => route dims conc me node = some (p, vc)

/-! ### `HypercubeParRouter`, hypercube_routing.cc:103-281, three dimensions only -/

/-- `HypercubeParRouter::header`, hypercube_routing.cc:104-112; the bit fields are cut to their
width when stored.  A new packet has all zero (packet.cc:68). -/
structure PHdr where
  stage : Nat := 0
  nhops : Nat := 0
  dstX : Nat := 0
  dstY : Nat := 0
  dstZ : Nat := 0
  ejPort : Nat := 0
  dest : Nat := 0
deriving DecidableEq, Repr

/-- The end of `route`, lines 263-264: `deadlock_vc = nhops; nhops++`, a 3-bit field. -/
def hop (p : Nat) (h : PHdr) : Nat × Nat × PHdr := (p, h.nhops, { h with nhops := (h.nhops + 1) % 8 })

/-- `case final_stage`, lines 243-259. -/
def finalStage (X Y : Nat) (me : Nat × Nat × Nat) (h : PHdr) : Nat × Nat × PHdr :=
  if h.dstX ≠ me.1 then hop h.dstX h
  else if h.dstY ≠ me.2.1 then hop (h.dstY + X) h
  else if h.dstZ ≠ me.2.2 then hop (h.dstZ + X + Y) h
  else (h.ejPort, 0, h)

/-- `case minimal_stage`, lines 196-226.  `r` are the random coordinates, drawn only for a
coordinate that differs from the destination's; `valiant` is the comparison of queue lengths,
which may come out either way. -/
def minimalStage (X Y Z : Nat) (me r : Nat × Nat × Nat) (valiant : Bool) (h : PHdr) : Nat × Nat × PHdr :=
  let c0 := if me.1 = h.dstX then me.1 else r.1
  let c1 := if me.2.1 = h.dstY then me.2.1 else r.2.1
  let c2 := if me.2.2 = h.dstZ then me.2.2 else r.2.2
  let go (minimalPort valiantPort : Nat) : Nat × Nat × PHdr :=
    if valiant then hop valiantPort { h with dest := switchAddr [X, Y, Z] [c0, c1, c2] % 16777216, stage := 2 }
    else hop minimalPort h
  if me.1 ≠ h.dstX then go h.dstX c0
  else if me.2.1 ≠ h.dstY then go (h.dstY + X) (c1 + X)
  else if me.2.2 ≠ h.dstZ then go (h.dstZ + X + Y) (c2 + X + Y)
  else (h.ejPort, 0, h)

/-- Coordinates of a switch of an X by Y by Z cube (`Torus::switchCoords`, torus.cc:190-201). -/
def xyz (X Y Z s : Nat) : Nat × Nat × Nat := (s % X, (s / X) % Y, (s / (X * Y)) % Z)

/-- `HypercubeParRouter::route`, lines 179-265. -/
def proute (X Y Z conc me node : Nat) (r : Nat × Nat × Nat) (valiant : Bool) (h : PHdr) : Nat × Nat × PHdr :=
  let my := xyz X Y Z me
  if h.stage = 0 then
    let ej := node / conc
    let d := xyz X Y Z ej
    let h := { h with dstX := d.1 % 64, dstY := d.2.1 % 64, dstZ := d.2.2 % 64,
                      ejPort := (node % conc + sum [X, Y, Z]) % 65536, stage := 1 }
    if ej = me then (h.ejPort, 0, h) else minimalStage X Y Z my r valiant h
  else if h.stage = 1 then minimalStage X Y Z my r valiant h
  else if h.stage = 2 then
    if me ≠ h.dest then
      let c := xyz X Y Z h.dest
      if c.1 ≠ my.1 then hop c.1 h
      else if c.2.1 ≠ my.2.1 then hop (c.2.1 + X) h
      else hop (c.2.2 + X + Y) h
    else finalStage X Y my { h with stage := 3 }
  else finalStage X Y my h

/-- The random coordinates are in range and not this switch's own
(`x_randomNumber`, lines 149-177), where one is drawn. -/
def Drawn (X Y Z me : Nat) (r : Nat × Nat × Nat) : Prop :=
  let my := xyz X Y Z me
  (2 ≤ X → r.1 < X ∧ r.1 ≠ my.1) ∧ (2 ≤ Y → r.2.1 < Y ∧ r.2.1 ≠ my.2.1) ∧ (2 ≤ Z → r.2.2 < Z ∧ r.2.2 ≠ my.2.2)

/-- The progressive adaptive router as a relation. -/
def prouter (X Y Z conc : Nat) : Router PHdr :=
  fun me node h p vc h' => ∃ r valiant, Drawn X Y Z me r ∧ proute X Y Z conc me node r valiant h = (p, vc, h')

end SST.Topo.Hypercube
