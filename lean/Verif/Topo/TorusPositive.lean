import Verif.Topo.Torus
/-
The router of a torus that goes up only, `TorusPositiveRouter`
(sstmac/hardware/router/torus_routing.cc).
-/
set_option autoImplicit false
namespace SST.Topo.TorusPositive

open SST.Topo.Torus (toPort)

/-- One turn of `minimalRoute` for a dimension whose coordinates differ, torus_routing.cc:399-412: port, virtual channel and `wrapped`.
`wrapped` is a `char` of one bit, used as a truth value only. -/
def step (dim D srcX dstX : Nat) (w : Bool) : Nat × Nat × Bool :=
  let nextX := (srcX + 1) % D
  let w1 := if srcX = D - 1 then true else w
  let vc := if srcX = D - 1 then 1 else if w then 1 else 0
  (toPort dim 0, vc, if nextX = dstX then false else w1)

/-- The loop of `minimalRoute`, torus_routing.cc:389-416; `none` is the abort at its end. -/
def posGo (src dst : Nat) (w : Bool) : Nat → Nat → List Nat → Option (Nat × Nat × Bool)
  | _, _, [] => none
  | i, div, D :: ds =>
    if (src / div) % D ≠ (dst / div) % D then some (step i D ((src / div) % D) ((dst / div) % D) w)
    else posGo src dst w (i + 1) (div * D) ds

/-- `TorusPositiveRouter::route`, torus_routing.cc:418-427, at switch `me` for a packet to `node`.  The header is zero at first,
packet.cc:68. -/
def route (dims : List Nat) (conc me node : Nat) (w : Bool) : Option (Nat × Nat × Bool) :=
  if node / conc = me then some (node % conc + 2 * dims.length, 0, w) else posGo me (node / conc) w 0 1 dims

/-- The router as a relation. -/
def router (dims : List Nat) (conc : Nat) : Router Bool :=
  fun me node w p vc w' => route dims conc me node w = some (p, vc, w')

end SST.Topo.TorusPositive
