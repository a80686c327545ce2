import Verif.Topo.Net
/-
Model of the dragonfly, its three inter-group wirings and the minimal router:
sstmac/hardware/topology/dragonfly.{h,cc}, sstmac/hardware/router/dragonfly_routing.cc:66-195.
Numbers are mathematical integers (the code uses `int`; switch counts are far below 2^31).
-/
set_option autoImplicit false
namespace SST.Topo.Dragonfly
open SST.Topo

/-- `a_`, `g_`, `h_`, `concentration_`, dragonfly.cc:72-101. -/
structure Par where
  /-- switches in a group -/
  a : Nat
  /-- groups -/
  g : Nat
  /-- global links of a switch -/
  h : Nat
  conc : Nat
deriving DecidableEq, Repr

/-- `computeA`, dragonfly.h:200-202. -/
def computeA (P : Par) (sid : Nat) : Nat := sid % P.a
/-- `computeG`, dragonfly.h:204-206. -/
def computeG (P : Par) (sid : Nat) : Nat := sid / P.a
/-- `getUid`, dragonfly.h:196-198. -/
def getUid (P : Par) (a g : Nat) : Nat := a + g * P.a

/-- `InterGroupWiring`, dragonfly.h:55-112. -/
structure Wiring where
  /-- `connectedRouters(a, g)` -/
  connected : Nat → Nat → List Nat
  /-- `inputGroupPort(srcA, srcG, srcH, dstA, dstG)` -/
  inport : Nat → Nat → Nat → Nat → Nat → Nat
  /-- `connectedToGroup(srcG, dstG, connected)`, from the vector passed in to the vector left -/
  toGroup : Nat → Nat → List (Nat × Nat) → List (Nat × Nat)

/-! ### Single-link wiring, dragonfly.cc:356-426 -/

/-- The macro `modulo`, dragonfly.cc:55; `%` of C++ truncates. -/
def modulo (x : Int) (b : Nat) : Nat := ((x.tmod b + b).tmod b).toNat

/-- `plusMinus`, dragonfly.cc:389. -/
def plusMinus (srcA : Nat) : Int := 1 - 2 * ((srcA % 2 : Nat) : Int)

/-- `deltaG`, dragonfly.cc:390. -/
def deltaG (srcA : Nat) : Int := (1 + ((srcA / 2 : Nat) : Int)) * plusMinus srcA

/-- `SingleLinkGroupWiring::connectedRouters`, dragonfly.cc:388-403. -/
def singleConnected (P : Par) (srcA srcG : Nat) : List Nat :=
  let deltaA := if P.a % 2 ≠ 0 ∧ srcA = P.a - 1 then 0 else plusMinus srcA
  [modulo (srcG + deltaG srcA) P.g * P.a + modulo (srcA + deltaA) P.a]

/-- `SingleLinkGroupWiring::connectedToGroup`, dragonfly.cc:414-424: the vector is resized to one
entry, which is overwritten when a switch with a link to the group is found and otherwise keeps
what it had. -/
def singleToGroup (P : Par) (srcG dstG : Nat) (prev : List (Nat × Nat)) : List (Nat × Nat) :=
  let old := prev.headD (0, 0)
  [(List.range P.a).foldl (fun x a =>
    if ((srcG : Int) + deltaG a + P.g).tmod P.g = dstG then (a, 0) else x) old]

/-- `SingleLinkGroupWiring`; `inputGroupPort` returns 0 (it aborts for another port than 0, which
`connectedRouters` does not produce). -/
def single (P : Par) : Wiring where
  connected := singleConnected P
  inport := fun _ _ _ _ _ => 0
  toGroup := singleToGroup P

/-! ### Circulant wiring, dragonfly.cc:428-503 -/

/-- `mod`, dragonfly.cc:57-60. -/
def cmod (x : Int) (b : Nat) : Nat :=
  let rem := x.tmod b
  (if rem < 0 then rem + b else rem).toNat

/-- `CirculantGroupWiring::connectedRouters`, dragonfly.cc:461-477. -/
def circConnected (P : Par) (srcA srcG : Nat) : List Nat :=
  let half := P.h / 2
  (List.range half).flatMap fun i =>
    let h : Nat := i + 1
    let plusG := cmod ((srcG : Int) + srcA * half + h) P.g
    let minusG := cmod ((srcG : Int) - srcA * half - h) P.g
    (if plusG ≠ srcG then [plusG * P.a + srcA] else []) ++
    (if minusG ≠ srcG then [minusG * P.a + srcA] else [])

/-- The first position of a switch of group `dstG` in a list of switches: the inner loop of
`CirculantGroupWiring::connectedToGroup`. -/
def firstIn (P : Par) (dstG : Nat) (l : List Nat) : Option Nat := l.findIdx? fun d => d / P.a == dstG

/-- `CirculantGroupWiring::connectedToGroup`, dragonfly.cc:488-501. -/
def circToGroup (P : Par) (srcG dstG : Nat) (_prev : List (Nat × Nat)) : List (Nat × Nat) :=
  (List.range P.a).filterMap fun a => (firstIn P dstG (circConnected P a srcG)).map fun c => (a, c)

/-- `CirculantGroupWiring`. -/
def circulant (P : Par) : Wiring where
  connected := circConnected P
  inport := fun _ _ srcH _ _ => if srcH % 2 = 0 then srcH + 1 else srcH - 1
  toGroup := circToGroup P

/-! ### All-to-all wiring, dragonfly.cc:505-603 -/

/-- `covering_`, dragonfly.cc:518. -/
def covering (P : Par) : Nat := P.h / (P.g - 1)
/-- `stride_`, dragonfly.cc:524. -/
def stride (P : Par) : Nat := P.a / covering P

/-- `AllToAllGroupWiring::connectedRouters`, dragonfly.cc:549-559. -/
def allConnected (P : Par) (srcA srcG : Nat) : List Nat :=
  ((List.range P.g).filter fun g => g ≠ srcG).flatMap fun g =>
    (List.range (covering P)).map fun c => g * P.a + (srcA + stride P * c) % P.a

/-- `AllToAllGroupWiring::inputGroupPort`, dragonfly.cc:532-540. -/
def allInport (P : Par) (srcA srcG _srcH dstA dstG : Nat) : Nat :=
  let deltaA := modulo ((srcA : Int) - dstA) P.a
  let offset := deltaA / stride P
  if srcG < dstG then srcG * covering P + offset else (srcG - 1) * covering P + offset

/-- `AllToAllGroupWiring::connectedToGroup`, dragonfly.cc:590-598. -/
def allToGroup (P : Par) (_srcG dstG : Nat) (_prev : List (Nat × Nat)) : List (Nat × Nat) :=
  (List.range P.a).flatMap fun a => (List.range (covering P)).map fun c => (a, dstG * covering P + c)

/-- `AllToAllGroupWiring`. -/
def allToAll (P : Par) : Wiring where
  connected := allConnected P
  inport := allInport P
  toGroup := allToGroup P

/-! ### Topology -/

/-- The links within the group in `connectedOutports`, dragonfly.cc:164-174. -/
def localConns (P : Par) (src : Nat) : List Conn :=
  ((List.range P.a).filter fun a => a ≠ computeA P src).map fun a =>
    { src := src, dst := getUid P a (computeG P src), outport := a, inport := computeA P src }

/-- The links to other groups in `connectedOutports`, dragonfly.cc:176-194. -/
def globalConns (P : Par) (W : Wiring) (src : Nat) : List Conn :=
  ((W.connected (computeA P src) (computeG P src)).zipIdx.filter fun x => computeG P x.1 ≠ computeG P src).map fun x =>
    { src := src, dst := x.1, outport := x.2 + P.a,
      inport := W.inport (computeA P src) (computeG P src) x.2 (computeA P x.1) (computeG P x.1) + P.a }

/-- `Dragonfly::connectedOutports`, dragonfly.cc:155-196.  The code writes into a vector of
`a_ - 1 + h_` entries. -/
def conns (P : Par) (W : Wiring) (src : Nat) : List Conn := localConns P src ++ globalConns P W src

/-- `Dragonfly::endpointsConnectedToInjectionSwitch`, dragonfly.cc:103-114. -/
def inj (P : Par) (s : Nat) : List (Nat × Nat) :=
  (List.range P.conc).map fun i => (s * P.conc + i, P.a + P.h + i)

/-- The network. -/
def net (P : Par) (W : Wiring) : Net where
  size := P.a * P.g
  conns := conns P W
  inj := inj P

/-- `Dragonfly::minimalDistance`, dragonfly.cc:116-141. -/
def minimalDistance (P : Par) (W : Wiring) (src dst : Nat) : Nat :=
  if computeG P src = computeG P dst then 1
  else
    let connected := W.connected (computeA P src) (computeG P src)
    if connected.contains dst then 1
    else
      -- the last switch of the list in the destination group
      match connected.reverse.find? fun d => computeG P d == computeG P dst with
      | some d => if 0 < d then 2 else 3
      | none => 3

/-! ### Minimal router -/

/-- The ports to the groups the switch has links to itself, dragonfly_routing.cc:100-111. -/
def directPorts (P : Par) (W : Wiring) (me dstG : Nat) : List Nat :=
  if dstG = computeG P me then []
  else ((W.connected (computeA P me) (computeG P me)).zipIdx.filter fun x => computeG P x.1 == dstG).map fun x => x.2 + P.a

/-- The vector `groupConnections` when the constructor's loop over the groups
(dragonfly_routing.cc:113-125) comes to group `n`. -/
def prevConns (P : Par) (W : Wiring) (me n : Nat) : List (Nat × Nat) :=
  (List.range n).foldl (fun prev g =>
    if g = computeG P me then prev
    else if directPorts P W me g ≠ [] then prev
    else W.toGroup (computeG P me) g prev) []

/-- What `connectedToGroup` gives the constructor for group `dstG`. -/
def farConns (P : Par) (W : Wiring) (me dstG : Nat) : List (Nat × Nat) :=
  W.toGroup (computeG P me) dstG (prevConns P W me dstG)

/-- `group_ports_[dstG]` after the constructor. -/
def groupPorts (P : Par) (W : Wiring) (me dstG : Nat) : List Nat :=
  if dstG = computeG P me then []
  else if directPorts P W me dstG ≠ [] then directPorts P W me dstG
  else (farConns P W me dstG).map Prod.fst

/-- Whether the constructor aborts ("Got zero group connections"), dragonfly_routing.cc:119-121. -/
def ctorAborts (P : Par) (W : Wiring) (me : Nat) : Bool :=
  (List.range P.g).any fun g => g ≠ computeG P me && directPorts P W me g == [] && farConns P W me g == []

/-- `DragonflyMinimalRouter::route` and `routeToSwitch`, dragonfly_routing.cc:143-184: output
port, virtual channel, new `num_group_hops` (two bits) and new `group_port_rotaters_`.  `none`:
the call aborts, or divides by the size of an empty vector. -/
def route (P : Par) (W : Wiring) (static : Bool) (me node hops : Nat) (rot : Nat → Nat) : Option (Nat × Nat × Nat × (Nat → Nat)) :=
  let ejaddr := node / P.conc
  if ejaddr = me then some (P.a + P.h + node % P.conc, 0, hops, rot)
  else
    let dstG := computeG P ejaddr
    if dstG = computeG P me then some (computeA P ejaddr, hops, hops, rot)
    else
      let ports := groupPorts P W me dstG
      let (idx, rot') :=
        if static then (ejaddr % ports.length, rot)
        else (rot dstG, fun i => if i = dstG then (rot dstG + 1) % ports.length else rot i)
      match ports[idx]? with
      | none => none
      | some p =>
        if P.a + P.h ≤ p then none
        else some (p, hops, if P.a ≤ p then (hops + 1) % 4 else hops, rot')

/-- Initial counters, dragonfly_routing.cc:127-131. -/
def rot0 (P : Par) (W : Wiring) (me : Nat) : Nat → Nat := fun g => me % (groupPorts P W me g).length

/-- The counters a router can have: those after routing any packets. -/
inductive Reach (P : Par) (W : Wiring) (static : Bool) (me : Nat) : (Nat → Nat) → Prop
  | init : Reach P W static me (rot0 P W me)
  | route {r : Nat → Nat} (h : Reach P W static me r) {node hops p vc hops' : Nat} {r' : Nat → Nat}
      (hr : route P W static me node hops r = some (p, vc, hops', r')) : Reach P W static me r'

/-- The router as a relation; the header of a packet is `num_group_hops`. -/
def router (P : Par) (W : Wiring) (static : Bool) : Router Nat :=
  fun me node hops p vc hops' => ∃ r r', Reach P W static me r ∧ route P W static me node hops r = some (p, vc, hops', r')

end SST.Topo.Dragonfly
