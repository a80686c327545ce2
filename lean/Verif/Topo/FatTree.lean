import Verif.Topo.Net
/-
Model of the fat tree and its router: sstmac/hardware/topology/fat_tree.{h,cc},
sstmac/hardware/router/fat_tree_router.{h,cc}.
-/
set_option autoImplicit false
namespace SST.Topo.FatTree
open SST.Topo

/-- The parameters of `FatTree`, fat_tree.cc:77-117. -/
structure Par where
  /-- `num_agg_subtrees` -/
  S : Nat
  /-- `leaf_switches_per_subtree` -/
  L : Nat
  /-- `agg_switches_per_subtree` -/
  A : Nat
  /-- `num_core_switches` -/
  K : Nat
  /-- `up_ports_per_leaf_switch` -/
  uL : Nat
  /-- `down_ports_per_agg_switch` -/
  D : Nat
  /-- `up_ports_per_agg_switch` -/
  uA : Nat
  /-- `down_ports_per_core_switch` -/
  C : Nat
  /-- `concentration` -/
  conc : Nat
  /-- `max_nodes` -/
  maxNodes : Nat
deriving DecidableEq, Repr

/-- `num_leaf_switches_`, fat_tree.cc:89. -/
def Par.nl (P : Par) : Nat := P.L * P.S
/-- `num_agg_switches_`, fat_tree.cc:90. -/
def Par.na (P : Par) : Nat := P.A * P.S
/-- `numSwitches`, fat_tree.h:102-104. -/
def Par.size (P : Par) : Nat := P.nl + P.na + P.K

/-- `FatTree::checkInput`, fat_tree.cc:343-421, and the check of `max_nodes`, 107-116.  True
when no error is thrown. -/
def checkInput (P : Par) : Bool :=
  P.S ≤ P.C && P.L ≤ P.D && P.C % P.S == 0 && P.D % P.L == 0 && P.K ≤ P.uA * P.A && P.A ≤ P.uL &&
  P.uL % P.A == 0 && P.K * P.C == P.na * P.uA && P.A * P.D == P.L * P.uL && P.maxNodes ≤ P.nl * P.conc

/-- Row 0 of `connectedOutports`, fat_tree.cc:236-263. -/
def leafConn (P : Par) (src up : Nat) : Conn :=
  let subtree := src / P.L
  let spot := src % P.L
  let sdp := spot + up * P.L
  { src := src, dst := P.nl + subtree * P.A + sdp / P.D, outport := up, inport := sdp % P.D }

/-- Row 1, up ports, fat_tree.cc:264-294. -/
def aggUp (P : Par) (src up : Nat) : Conn :=
  let subtree := (src - P.nl) / P.A
  let spot := (src - P.nl) % P.A
  let g := up * P.na + spot * P.S + subtree
  { src := src, dst := P.nl + P.na + g / P.C, outport := P.D + up, inport := g % P.C }

/-- Row 1, down ports, fat_tree.cc:295-318. -/
def aggDown (P : Par) (src dwn : Nat) : Conn :=
  let subtree := (src - P.nl) / P.A
  let spot := (src - P.nl) % P.A
  { src := src, dst := subtree * P.L + dwn % P.L, outport := dwn, inport := spot + dwn / P.L * P.L }

/-- Row 2, fat_tree.cc:319-341. -/
def coreDown (P : Par) (src dwn : Nat) : Conn :=
  let g := (src - P.na - P.nl) * P.C + dwn
  { src := src, dst := P.nl + g % P.S * P.A + g % P.na / P.S, outport := dwn, inport := g / P.na + P.D }

/-- `FatTree::connectedOutports`, fat_tree.cc:216-341. -/
def conns (P : Par) (src : Nat) : List Conn :=
  if src < P.nl then (List.range P.uL).map (leafConn P src)
  else if src < P.nl + P.na then (List.range P.uA).map (aggUp P src) ++ (List.range P.D).map (aggDown P src)
  else (List.range P.C).map (coreDown P src)

/-- Whether `connectedOutports` aborts at `src`: the checks at fat_tree.cc:258, 289, 313, 336. -/
def aborts (P : Par) (src : Nat) : Bool :=
  if src < P.nl then (List.range P.uL).any fun u => P.D ≤ (leafConn P src u).inport
  else if src < P.nl + P.na then
    ((List.range P.uA).any fun u => P.C ≤ (aggUp P src u).inport) ||
    ((List.range P.D).any fun d => P.uL ≤ (aggDown P src d).inport)
  else (List.range P.C).any fun d => (coreDown P src d).inport < P.D

/-- `FatTree::endpointsConnectedToInjectionSwitch`, fat_tree.cc:423-442. -/
def inj (P : Par) (s : Nat) : List (Nat × Nat) :=
  if s < P.nl then
    ((List.range P.conc).map fun i => (s * P.conc + i, P.uL + i)).filter fun x => x.1 < P.maxNodes
  else []

/-- The network. -/
def net (P : Par) : Net where
  size := P.size
  conns := conns P
  inj := inj P

/-- `FatTree::aggSubtree`, fat_tree.h:234-236: `(sid - num_leaf_switches_) / ...` in 32-bit
unsigned arithmetic (`SwitchId` is `uint32_t`). -/
def aggSubtree (P : Par) (sid : Nat) : Nat := toU32 ((sid : Int) - (P.nl : Int)) / P.A

/-- `FatTree::minimalDistance`, fat_tree.h:201-212. -/
def minimalDistance (P : Par) (src dst : Nat) : Nat :=
  if src = dst then 0 else if aggSubtree P src = aggSubtree P dst then 2 else 4

/-! ### Router -/

/-- `FatTree::subtree`, fat_tree.h:122-132, of a leaf or aggregation switch. -/
def subtree (P : Par) (sid : Nat) : Nat :=
  if sid < P.nl then sid / P.L else (sid - P.nl) / P.A

/-- `down_routes_[path]`, fat_tree_router.cc:84-102: at a core switch the ports to a subtree, at
an aggregation switch the ports to a leaf of its subtree. -/
def downRoutes (P : Par) (me path : Nat) : List Nat :=
  if P.nl + P.na ≤ me then
    ((conns P me).filter fun c => (c.dst - P.nl) / P.A == path).map Conn.outport
  else
    (((conns P me).filter fun c => c.dst < me).filter fun c => c.dst % P.L == path).map Conn.outport

/-- State of the two kinds of rotating counters of a router: `up_next_` and
`down_rotaters_`. -/
structure Rot where
  up : Nat
  down : Nat → Nat

/-- `getUpPort`, fat_tree_router.cc:157-163, with `firstUpPort` (fat_tree.h:151-163). -/
def getUpPort (P : Par) (me : Nat) (r : Rot) : Nat × Rot :=
  let num := if me < P.nl then P.uL else P.uA
  let first := if me < P.nl then 0 else P.D
  (first + r.up, { r with up := (r.up + 1) % num })

/-- `getDownPort`, fat_tree_router.cc:165-173; `none`: index outside the vector. -/
def getDownPort (P : Par) (me path : Nat) (r : Rot) : Option (Nat × Rot) :=
  let routes := downRoutes P me path
  match routes[r.down path]? with
  | none => none
  | some p => some (p, { r with down := fun i => if i = path then (r.down path + 1) % routes.length else r.down i })

/-- Initial counters, fat_tree_router.cc:60-82 and 104-108. -/
def rot0 (P : Par) (me : Nat) : Rot where
  up := me % (if me < P.nl then P.uL else P.uA)
  down path := me % (downRoutes P me path).length

/-- `FatTreeRouter::route`, fat_tree_router.cc:111-155: output port, virtual channel and the
router's new counters. -/
def route (P : Par) (me node : Nat) (r : Rot) : Option (Nat × Nat × Rot) :=
  let dst := node / P.conc
  if dst = me then some (node % P.conc + P.uL, 0, r)
  else
    let up := let x := getUpPort P me r; some (x.1, 0, x.2)
    let down path := (getDownPort P me path r).map fun x => (x.1, 0, x.2)
    if P.nl + P.na ≤ me then down (subtree P dst)
    else if P.nl ≤ me then
      if subtree P dst = subtree P me then down (dst % P.L) else up
    else up

/-- The counters a router can have: those after routing any packets. -/
inductive Reach (P : Par) (me : Nat) : Rot → Prop
  | init : Reach P me (rot0 P me)
  | route {r : Rot} (h : Reach P me r) {node : Nat} (hn : node < P.maxNodes) {p vc : Nat} {r' : Rot}
      (hr : route P me node r = some (p, vc, r')) : Reach P me r'

/-- The router as a relation: its counters are any it can have.  Nothing is kept in the
packet. -/
def router (P : Par) : Router Unit :=
  fun me node _ p vc _ => ∃ r r', Reach P me r ∧ route P me node r = some (p, vc, r')

end SST.Topo.FatTree
