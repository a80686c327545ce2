import Verif.Topo.Dragonfly
/-
Model of the cascade (dragonfly with two-dimensional groups) and its router:
sstmac/hardware/topology/cascade.{h,cc}, sstmac/hardware/router/cascade_routing.cc:60-113.
Numbers are mathematical integers (the code uses `int`).  The rest of cascade_routing.cc is
commented out.
-/
set_option autoImplicit false
namespace SST.Topo.Cascade
open SST.Topo

/-- `dimensions_` (x, y, groups), the parameter `group_connections`, `concentration_`;
cascade.cc:72-79. -/
structure Par where
  x : Nat
  y : Nat
  g : Nat
  /-- `group_connections` as asked for -/
  req : Nat
  conc : Nat
deriving DecidableEq, Repr

/-- `group_con_`, cascade.cc:79-87. -/
def gc (P : Par) : Nat := if P.g ≤ P.req then P.g - 1 else P.req

/-- `computeX`, cascade.h:157-159. -/
def cx (P : Par) (s : Nat) : Nat := s % P.x
/-- `computeY`, cascade.h:161-163. -/
def cy (P : Par) (s : Nat) : Nat := s / P.x % P.y
/-- `computeG`, cascade.h:165-167. -/
def cg (P : Par) (s : Nat) : Nat := s / (P.x * P.y)
/-- `get_uid`, cascade.h:141-143. -/
def uid (P : Par) (X Y G : Nat) : Nat := G * (P.x * P.y) + Y * P.x + X
/-- `x_port`, `y_port`, `g_port`, cascade.h:145-155. -/
def xPort (_P : Par) (X : Nat) : Nat := X
@[inherit_doc xPort] def yPort (P : Par) (Y : Nat) : Nat := P.x + Y
@[inherit_doc xPort] def gPort (P : Par) (G : Nat) : Nat := P.x + P.y + G

/-- `xygDirToGroup`, cascade.cc:305-320; `mod` (cascade.cc:67-70) is the same function as in
dragonfly.cc. -/
def dirToGroup (P : Par) (X Y G dir : Nat) : Nat :=
  let A := X * P.y + Y
  let half := gc P / 2
  if half ≤ dir then Dragonfly.cmod ((G : Int) - A * half - (dir - half : Nat)) P.g
  else Dragonfly.cmod ((G : Int) + A * half + dir) P.g

/-- `connectedOutports`, cascade.cc:239-289. -/
def conns (P : Par) (s : Nat) : List Conn :=
  (((List.range P.x).filter fun X => X ≠ cx P s).map fun X =>
    { src := s, dst := uid P X (cy P s) (cg P s), outport := xPort P X, inport := xPort P (cx P s) }) ++
  (((List.range P.y).filter fun Y => Y ≠ cy P s).map fun Y =>
    { src := s, dst := uid P (cx P s) Y (cg P s), outport := yPort P Y, inport := yPort P (cy P s) }) ++
  ((((List.range (gc P)).map fun d => dirToGroup P (cx P s) (cy P s) (cg P s) d).filter fun G => G ≠ cg P s).map fun G =>
    { src := s, dst := uid P (cx P s) (cy P s) G, outport := gPort P G, inport := gPort P (cg P s) })

/-- `endpointsConnectedToInjectionSwitch`, cascade.cc:90-101. -/
def inj (P : Par) (s : Nat) : List (Nat × Nat) := (List.range P.conc).map fun i => (s * P.conc + i, P.x + P.y + P.g + i)

/-- The network; `numSwitches`, cascade.h:169-171. -/
def net (P : Par) : Net where
  size := P.x * P.y * P.g
  conns := conns P
  inj := inj P

/-- `minimalDistance`, cascade.cc:213-236. -/
def minimalDistance (P : Par) (s t : Nat) : Nat :=
  if cg P s = cg P t then (if cx P s ≠ cx P t then 1 else 0) + (if cy P s ≠ cy P t then 1 else 0) else 5

/-- The loop of `xy_connected_to_group`, cascade.cc:110-114. -/
def groupLoop (g stride : Nat) : Nat → Nat → Nat → Bool
  | 0, _, _ => false
  | n + 1, t, d => if t % g = d then true else groupLoop g stride n (t % g + stride) d

/-- `xy_connected_to_group`, cascade.cc:103-116 (with no group connections it divides by zero). -/
def xyConnected (P : Par) (X Y G dG : Nat) : Bool :=
  groupLoop P.g (max 1 (P.g / gc P)) (gc P) (G + (X + Y * P.x) % P.g) dG

/-- `find_y_path_to_group`, cascade.cc:118-131, with the number drawn: the row of the gateway. -/
def findY (P : Par) (X G dG draw : Nat) : Option Nat :=
  ((List.range P.y).map fun yy => (draw + yy) % P.y).find? fun Y => xyConnected P X Y G dG

/-- `find_x_path_to_group`, cascade.cc:133-146. -/
def findX (P : Par) (Y G dG draw : Nat) : Option Nat :=
  ((List.range P.x).map fun xx => (draw + xx) % P.x).find? fun X => xyConnected P X Y G dG

/-- `find_path_to_group`, cascade.cc:148-183: the port; `draw i` is the i-th number drawn by a search;
`none` if it throws. -/
def findPath (P : Par) (X Y G dG : Nat) (draw : Nat → Nat) : Option Nat :=
  if xyConnected P X Y G dG then some (gPort P dG)
  else match findX P Y G dG (draw 0) with
    | some X' => some (xPort P X')
    | none => match findY P X G dG (draw 1) with
      | some Y' => some (yPort P Y')
      | none => ((List.range P.x).findSome? fun xx => findY P (xx % P.x) G dG (draw (2 + xx))).map (yPort P)

/-- `minimalRouteToSwitch`, cascade.cc:186-211: the port; `none` if it throws or aborts. -/
def routeToSwitch (P : Par) (s t : Nat) (draw : Nat → Nat) : Option Nat :=
  if cg P s ≠ cg P t then findPath P (cx P s) (cy P s) (cg P s) (cg P t) draw
  else if cx P s ≠ cx P t then some (xPort P (cx P t))
  else if cy P s ≠ cy P t then some (yPort P (cy P t))
  else none

/-- `deadlock_vc = num_group_hops`, cascade_routing.cc:103: from two signed bits to four unsigned
bits. -/
def vcOf (h : Nat) : Nat := if h < 2 then h else h + 12

/-- `route`, cascade_routing.cc:93-108: port, virtual channel, new `num_group_hops` (two bits); `isGlobalPort`
is cascade.h:107-109.  `num_hops` is counted but not used. -/
def route (P : Par) (me node h : Nat) (draw : Nat → Nat) : Option (Nat × Nat × Nat) :=
  let ej := node / P.conc
  if ej = me then some (node % P.conc + (P.x + P.y + P.g), 0, h)
  else (routeToSwitch P me ej draw).map fun p => (p, vcOf h, if P.x + P.y ≤ p then (h + 1) % 4 else h)

/-- The router as a relation, for all numbers drawn; the header is `num_group_hops`. -/
def router (P : Par) : Router Nat := fun me node h p vc h' => ∃ draw, route P me node h draw = some (p, vc, h')

/-- `numVC`, cascade_routing.cc:89-91. -/
def numVC : Nat := 2

end SST.Topo.Cascade
