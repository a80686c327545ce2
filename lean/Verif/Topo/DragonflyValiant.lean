import Verif.Topo.Dragonfly
/-
Model of the dragonfly routers that leave the shortest path:
`DragonflyValiantRouter`, `DragonflyUGALRouter` and `DragonflyPARRouter`,
sstmac/hardware/router/dragonfly_routing.cc:197-566.  Random draws (`randomNumber`) and the
comparison of queue lengths (`switchPaths`) are inputs, so the theorems hold for all of them.
Ports are assumed to fit into the 16 bits of `edge_port`.
-/
set_option autoImplicit false
namespace SST.Topo.Dragonfly
open SST.Topo

/-- Which of the routers. -/
inductive Algo where
  | valiant
  | ugal
  | par
deriving DecidableEq, Repr

/-- `DragonflyValiantRouter::header` and its base, dragonfly_routing.cc:75-78, 211-214. -/
structure VHdr where
  /-- `num_group_hops`, two bits -/
  ng : Nat
  /-- `num_hops`, four bits -/
  nhops : Nat
  /-- `stage_number`, three bits: 0 initial, 1 valiant, 2 final, 3 minimal only -/
  stage : Nat
  /-- `dest_switch`, 24 bits -/
  dest : Nat
deriving DecidableEq, Repr

/-- The header of a new packet (`memset` in packet.cc:68). -/
def VHdr.init : VHdr := ⟨0, 0, 0, 0⟩

/-- The counters of a router: `group_port_rotaters_` and `gateway_rotater_`. -/
structure VRot where
  grot : Nat → Nat
  wrot : Nat → Nat

/-- `routeToSwitch`, dragonfly_routing.cc:157-184: port, new `num_group_hops`, new
`group_port_rotaters_`; `none`: aborts or divides by zero. -/
def toSwitch (P : Par) (W : Wiring) (static : Bool) (me target ng : Nat) (rot : Nat → Nat) : Option (Nat × Nat × (Nat → Nat)) :=
  let dstG := computeG P target
  if dstG = computeG P me then some (computeA P target, ng, rot)
  else
    let ports := groupPorts P W me dstG
    let (idx, rot') :=
      if static then (target % ports.length, rot)
      else (rot dstG, fun i => if i = dstG then (rot dstG + 1) % ports.length else rot i)
    match ports[idx]? with
    | none => none
    | some p => if P.a + P.h ≤ p then none else some (p, if P.a ≤ p then (ng + 1) % 4 else ng, rot')

/-- The entries of `group_gateways_[i]` for the other switches of the group,
dragonfly_routing.cc:223-232. -/
def gateBase (P : Par) (W : Wiring) (me i : Nat) : List (Nat × Nat) :=
  ((List.range P.a).filter fun a => a ≠ computeA P me).flatMap fun a =>
    ((W.connected a (computeG P me)).filter fun sid => computeG P sid == i).map fun sid => (a, sid)

/-- `dest` in dragonfly_routing.cc:243-254: the links are looked up for switch
`(a + my_a) % a_`, but the switch recorded is `a`; the last one found counts. -/
def detour (P : Par) (W : Wiring) (me i interG : Nat) : Option Nat :=
  (List.range P.a).foldl (fun acc a =>
    if (W.connected ((a + computeA P me) % P.a) interG).any (fun sid => computeG P sid == i) then some (getUid P a interG) else acc) none

/-- The groups tried in dragonfly_routing.cc:240-241. -/
def interGroups (P : Par) (me i : Nat) : List Nat := (List.range P.g).filter fun g => g ≠ computeG P me && g ≠ i

/-- `group_gateways_[i]` after the constructor, dragonfly_routing.cc:223-266. -/
def gateways (P : Par) (W : Wiring) (me i : Nat) : List (Nat × Nat) :=
  if gateBase P W me i ≠ [] then gateBase P W me i
  else (interGroups P me i).filterMap fun interG =>
    (detour P W me i interG).map fun dest =>
      let ports := groupPorts P W me interG
      (ports.getD (computeA P me % ports.length) 0, dest)

/-- The constructor of the Valiant router aborts ("Group has no extra-hop valiant connections")
or divides by zero (dragonfly_routing.cc:263, no entry in `group_gateways_[i]`). -/
def vctorAborts (P : Par) (W : Wiring) (me : Nat) : Bool :=
  (List.range P.g).any fun i => i ≠ computeG P me && gateBase P W me i == [] &&
    ((interGroups P me i).any (fun g => (detour P W me i g).isNone) || interGroups P me i == [])

/-- `checkValiantInterGroup`, dragonfly_routing.cc:276-290, and the same in
`checkUGALInterGroup`, lines 400-406, once `new_g` is drawn. -/
def valiantInter (P : Par) (W : Wiring) (me newG : Nat) (h : VHdr) (st : VRot) : Option (Nat × VHdr × VRot) :=
  match (gateways P W me newG)[st.wrot newG]? with
  | none => none
  | some x => some (x.1, { h with dest := x.2 % 2 ^ 24, stage := 1 },
      { st with wrot := fun i => if i = newG then (st.wrot newG + 1) % (gateways P W me newG).length else st.wrot i })

/-- `checkValiantIntraGroup`, dragonfly_routing.cc:292-304, once `new_a` is drawn. -/
def valiantIntra (P : Par) (me newA : Nat) (h : VHdr) (st : VRot) : Option (Nat × VHdr × VRot) :=
  some (newA, { h with dest := getUid P newA (computeG P me) % 2 ^ 24, stage := 1 }, st)

/-- The minimal branch of `checkUGALInterGroup`, dragonfly_routing.cc:386, 408-415. -/
def ugalMin (P : Par) (W : Wiring) (me ej minStage : Nat) (h : VHdr) (st : VRot) : Option (Nat × VHdr × VRot) :=
  let dstG := computeG P ej
  match (groupPorts P W me dstG)[st.grot dstG]? with
  | none => none
  | some p =>
    if gateways P W me dstG = [] then none
    else some (p, { h with dest := ej % 2 ^ 24, stage := minStage },
      { grot := fun i => if i = dstG then (st.grot dstG + 1) % (groupPorts P W me dstG).length else st.grot i,
        wrot := fun i => if i = dstG then (st.wrot dstG + 1) % (gateways P W me dstG).length else st.wrot i })

/-- The `final_stage` case, dragonfly_routing.cc:335-339, 485-491, 556-560. -/
def finalTo (P : Par) (W : Wiring) (static : Bool) (me ej : Nat) (h : VHdr) (st : VRot) : Option (Nat × VHdr × VRot) :=
  (toSwitch P W static me ej h.ng st.grot).map fun x => (x.1, { h with ng := x.2.1, stage := 2, dest := ej % 2 ^ 24 }, { st with grot := x.2.2 })

/-- The stage for a packet that starts on a minimal path: `minimal_only_stage` for UGAL,
`initial_stage` for PAR (dragonfly_routing.cc:460-464, 541-545). -/
def minStage : Algo → Nat
  | .par => 0
  | _ => 3

/-- The `switch` of `route`, dragonfly_routing.cc:315-341, 456-493, 537-562.  `new` is the random
number that ends the drawing loop, `go` the answer of `switchPaths`.  `none`: the loop draws
again, or the call aborts. -/
def vswitch (A : Algo) (P : Par) (W : Wiring) (static : Bool) (me ej : Nat) (h : VHdr) (st : VRot) (new : Nat) (go : Bool) :
    Option (Nat × VHdr × VRot) :=
  if h.stage = 0 then
    if computeG P ej = computeG P me then
      if new < P.a ∧ new ≠ computeA P me ∧ new ≠ computeA P ej then
        if A = .valiant ∨ go then valiantIntra P me new h st
        else some (computeA P ej, { h with dest := ej % 2 ^ 24, stage := minStage A }, st)
      else none
    else if A ≠ .valiant ∧ P.g ≤ 2 then ugalMin P W me ej (minStage A) h st
    else if new < P.g ∧ new ≠ computeG P me ∧ new ≠ computeG P ej then
      if A = .valiant ∨ go then valiantInter P W me new h st
      else ugalMin P W me ej (minStage A) h st
    else none
  else if h.stage = 1 then
    if me = h.dest then finalTo P W static me ej h st
    else (toSwitch P W static me h.dest h.ng st.grot).map fun x => (x.1, { h with ng := x.2.1 }, { st with grot := x.2.2 })
  else if h.stage = 2 then finalTo P W static me ej h st
  else if h.stage = 3 ∧ A = .ugal then
    (toSwitch P W static me ej h.ng st.grot).map fun x => (x.1, { h with ng := x.2.1 }, { st with grot := x.2.2 })
  else none

/-- `numVC`, dragonfly_routing.cc:272-274, 376-378; PAR inherits it. -/
def numVC : Nat := 6

/-- `route`, dragonfly_routing.cc:306-344, 446-499, 527-565: port, virtual channel, new header,
new counters. -/
def vroute (A : Algo) (P : Par) (W : Wiring) (static : Bool) (me node : Nat) (h : VHdr) (st : VRot) (new : Nat) (go : Bool) :
    Option (Nat × Nat × VHdr × VRot) :=
  let ej := node / P.conc
  if ej = me then some (P.a + P.h + node % P.conc, 0, h, st)
  else
    match vswitch A P W static me ej h st new go with
    | none => none
    | some x =>
      if A = .ugal ∧ numVC ≤ h.nhops then none
      else some (x.1, h.nhops, { x.2.1 with nhops := (h.nhops + 1) % 16 }, x.2.2)

/-- Counters after the constructor. -/
def vrot0 (P : Par) (W : Wiring) (me : Nat) : VRot := ⟨rot0 P W me, fun i => me % (gateways P W me i).length⟩

/-- The counters a router can have. -/
inductive VReach (A : Algo) (P : Par) (W : Wiring) (static : Bool) (me : Nat) : VRot → Prop
  | init : VReach A P W static me (vrot0 P W me)
  | route {st : VRot} (hr : VReach A P W static me st) {node : Nat} {h : VHdr} {new : Nat} {go : Bool} {p vc : Nat} {h' : VHdr} {st' : VRot}
      (e : vroute A P W static me node h st new go = some (p, vc, h', st')) : VReach A P W static me st'

/-- The router as a relation: any counters, draws and queue lengths. -/
def vrouter (A : Algo) (P : Par) (W : Wiring) (static : Bool) : Router VHdr :=
  fun me node h p vc h' => ∃ st st' new go, VReach A P W static me st ∧ vroute A P W static me node h st new go = some (p, vc, h', st')

end SST.Topo.Dragonfly
