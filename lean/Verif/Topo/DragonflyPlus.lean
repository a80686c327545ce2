import Verif.Topo.Dragonfly
/-
Model of the dragonfly+ and its two routers: sstmac/hardware/topology/dragonfly_plus.{h,cc},
sstmac/hardware/router/dragonfly_plus_routing.cc.  Every group has `a` leaf switches (row 0, with
the nodes) and `a` spine switches (row 1, with the links to other groups), all connected.  The
links between the groups come from the wirings of the dragonfly (Dragonfly.lean).
Numbers are mathematical integers (the code uses `int`).
-/
set_option autoImplicit false
namespace SST.Topo.DragonflyPlus
open SST.Topo SST.Topo.Dragonfly

/-- `num_leaf_switches_`, dragonfly_plus.cc:115. -/
def leafs (P : Par) : Nat := P.a * P.g
/-- `computeRow`, dragonfly_plus.h:156-158. -/
def row (P : Par) (s : Nat) : Nat := s / leafs P
/-- `computeA`, dragonfly_plus.h:160-162. -/
def colA (P : Par) (s : Nat) : Nat := s % P.a
/-- `computeG`, dragonfly_plus.h:164-166. -/
def grp (P : Par) (s : Nat) : Nat := s % leafs P / P.a
/-- `getUid`, dragonfly_plus.h:152-154. -/
def uid (P : Par) (r A G : Nat) : Nat := r * leafs P + G * P.a + A

/-- `connectedOutports`, dragonfly_plus.cc:174-226. -/
def conns (P : Par) (W : Wiring) (src : Nat) : List Conn :=
  if row P src = 0 then
    (List.range P.a).map fun a => { src := src, dst := uid P 1 a (grp P src), outport := a, inport := colA P src }
  else
    ((List.range P.a).map fun a => { src := src, dst := uid P 0 a (grp P src), outport := a, inport := colA P src }) ++
    (W.connected (colA P src) (grp P src)).zipIdx.map fun x =>
      { src := src, dst := x.1 + P.a * P.g, outport := x.2 + P.a,
        inport := P.a + W.inport (colA P src) (grp P src) x.2 (x.1 % P.a) (x.1 / P.a) }

/-- `endpointsConnectedToInjectionSwitch`, dragonfly_plus.cc:120-137. -/
def inj (P : Par) (s : Nat) : List (Nat × Nat) :=
  if 0 < row P s then [] else (List.range P.conc).map fun i => (s * P.conc + i, i + P.a)

/-- The network; `numSwitches`, dragonfly_plus.h:168-170. -/
def net (P : Par) (W : Wiring) : Net where
  size := 2 * P.a * P.g
  conns := conns P W
  inj := inj P

/-- `minimalDistance`, dragonfly_plus.cc:139-153. -/
def minimalDistance (P : Par) (src dst : Nat) : Nat :=
  if grp P src = grp P dst then (if row P src = row P dst then 2 else 1)
  else 1 + (1 - row P src) + (1 - row P dst)

/-- `numHopsToNode`, dragonfly_plus.h:182-184. -/
def numHopsToNode (P : Par) (src dst : Nat) : Nat := minimalDistance P (src / P.conc) (dst / P.conc)

/-! ### The minimal router, dragonfly_plus_routing.cc:59-172 -/

/-- The group the constructor expects behind global port `p`, dragonfly_plus_routing.cc:105-108. -/
def expectedG (P : Par) (me p : Nat) : Nat :=
  let e := p / covering P
  if grp P me ≤ e then e + 1 else e

/-- Whether the constructors of the topology (dragonfly_plus.cc:111-113; with one group it divides by
zero) and of the router (dragonfly_plus_routing.cc:80-115) refuse the configuration at a switch. -/
def ctorAborts (P : Par) (W : Wiring) (me : Nat) : Bool :=
  P.g ≤ 1 || covering P == 0 || P.h % (P.g - 1) != 0 ||
  (W.connected (colA P me) (grp P me)).zipIdx.any fun x => expectedG P me x.2 != grp P x.1

/-- `rotater_` and `grp_rotaters_`. -/
structure Rot where
  up : Nat
  grp : Nat → Nat

/-- Initial counters, dragonfly_plus_routing.cc:78, 92-95. -/
def rot0 (P : Par) (me : Nat) : Rot := ⟨me % P.a, fun _ => 0⟩

/-- The first of the ports to a group: `grpOffset*covering_ + dfly_->a()`,
dragonfly_plus_routing.cc:149-157. -/
def groupBase (P : Par) (me dstG : Nat) : Nat := (if grp P me < dstG then dstG - 1 else dstG) * covering P + P.a

/-- `route` of the minimal router, dragonfly_plus_routing.cc:128-161: output port and new counters;
the virtual channel is 0 everywhere. -/
def minRoute (P : Par) (static : Bool) (me node : Nat) (r : Rot) : Nat × Rot :=
  let ej := node / P.conc
  if ej = me then (node % P.conc + P.a, r)
  else
    let dstG := ej % leafs P / P.a
    if row P me = 0 then
      if static then (ej % P.a, r) else (r.up, { r with up := (r.up + 1) % P.a })
    else if grp P me = dstG then (ej % P.a, r)
    else if static then (groupBase P me dstG + ej % covering P, r)
    else (groupBase P me dstG + r.grp dstG,
      { r with grp := fun i => if i = dstG then (r.grp dstG + 1) % covering P else r.grp i })

/-- The counters a router can have. -/
inductive MReach (P : Par) (static : Bool) (me : Nat) : Rot → Prop
  | init : MReach P static me (rot0 P me)
  | route {r : Rot} (h : MReach P static me r) (node : Nat) : MReach P static me (minRoute P static me node r).2

/-- The minimal router as a relation. -/
def minRouter (P : Par) (static : Bool) : Router Unit :=
  fun me node _ p vc _ => ∃ r, MReach P static me r ∧ p = (minRoute P static me node r).1 ∧ vc = 0

/-- `numVC`, dragonfly_plus_routing.cc:120-122. -/
def minVC : Nat := 1

/-! ### Progressive adaptive routing, dragonfly_plus_routing.cc:174-298 -/

/-- `stage_number` and `deadlock_vc` of the packet header. -/
structure PHdr where
  stage : Nat
  vc : Nat
deriving DecidableEq, Repr

/-- Header of a new packet. -/
def PHdr.init : PHdr := ⟨0, 0⟩

/-- The port for a draw, dragonfly_plus_routing.cc:245-258: `none` if the loop draws again. -/
def valiantPort (P : Par) (me dstG draw : Nat) : Option Nat :=
  if covering P * P.g ≤ draw then none
  else
    let interG := draw / covering P
    if interG = grp P me ∨ interG = dstG then none
    else some ((if grp P me < interG then draw - covering P else draw) + P.a)

/-- `route`, dragonfly_plus_routing.cc:211-283: `draw` is the number drawn last, `goMin` the result of
the comparison of queue lengths.  Output port, new header, new counters; `none` if the
draw is not possible. -/
def parRoute (P : Par) (me node : Nat) (h : PHdr) (r : Rot) (draw : Nat) (goMin : Bool) : Option (Nat × PHdr × Rot) :=
  let ej := node / P.conc
  if row P me = 0 then
    if ej = me then some (node % P.conc + P.a, { h with vc := 0 }, r)
    else some (r.up, { h with vc := 0 }, { r with up := (r.up + 1) % P.a })
  else
    let dstG := ej % leafs P / P.a
    let next : Rot := { r with grp := fun i => if i = dstG then (r.grp dstG + 1) % covering P else r.grp i }
    if grp P me = dstG then some (ej % P.a, h, r)
    else if h.stage = 1 then some (groupBase P me dstG + r.grp dstG, { h with vc := 1 }, next)
    else
      let minimalPort := groupBase P me dstG + r.grp dstG
      if 2 < P.g then
        match valiantPort P me dstG draw with
        | none => none
        | some v => if goMin then some (minimalPort, ⟨2, 0⟩, next) else some (v, ⟨1, 0⟩, r)
      else some (minimalPort, ⟨2, 0⟩, next)

/-- Initial counters (`up_rotater_ = 0`), dragonfly_plus_routing.cc:203-207. -/
def parRot0 : Rot := ⟨0, fun _ => 0⟩

/-- The counters a router can have. -/
inductive PReach (P : Par) (me : Nat) : Rot → Prop
  | init : PReach P me parRot0
  | route {r : Rot} (h : PReach P me r) {node : Nat} {hd : PHdr} {draw : Nat} {goMin : Bool} {p : Nat} {hd' : PHdr} {r' : Rot}
      (e : parRoute P me node hd r draw goMin = some (p, hd', r')) : PReach P me r'

/-- The router as a relation, for all draws and queue lengths. -/
def parRouter (P : Par) : Router PHdr :=
  fun me node h p vc h' => ∃ r r' draw goMin, PReach P me r ∧ parRoute P me node h r draw goMin = some (p, h', r') ∧ vc = h'.vc

/-- `numVC`, dragonfly_plus_routing.cc:285-287. -/
def parVC : Nat := 2

end SST.Topo.DragonflyPlus
