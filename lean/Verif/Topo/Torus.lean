import Verif.Topo.Net
import Verif.Topo.Coords
/-
The torus topology (sstmac/hardware/topology/torus.{h,cc}) and its routers
(sstmac/hardware/router/torus_routing.cc).  `int` arithmetic is modelled by natural numbers
where no value can be negative, by integers otherwise; switch numbers are `uint32_t`.
-/
set_option autoImplicit false
namespace SST.Topo.Torus

/-- `Torus::convertToPort`, torus.h:133-135 (`pos` is 0, `neg` is 1, torus.h:80-83). -/
def toPort (dim dir : Nat) : Nat := 2 * dim + dir

/-- `plus_jump`, torus.cc:157-163. -/
def plusJump (D x : Nat) : Int := if x = D - 1 then -((D - 1 : Nat) : Int) else 1

/-- `minus_jump`, torus.cc:158-166: an `else if`, so it is skipped in the last row. -/
def minusJump (D x : Nat) : Int :=
  if x = D - 1 then -1 else if x = 0 then ((D - 1 : Nat) : Int) else -1

/-- The loop of `Torus::connectedOutports`, torus.cc:148-188. -/
def connGo (src : Nat) : Nat → Nat → List Nat → List Conn
  | _, _, [] => []
  | i, stride, D :: ds =>
    let x := (src / stride) % D
    { src := src, dst := toU32 (src + plusJump D x * stride), outport := toPort i 0, inport := toPort i 1 } ::
    { src := src, dst := toU32 (src + minusJump D x * stride), outport := toPort i 1, inport := toPort i 0 } ::
    connGo src (i + 1) (stride * D) ds

/-- `Torus::endpointsConnectedToInjectionSwitch`, torus.cc:67-80. -/
def inj (dims : List Nat) (conc s : Nat) : List (Nat × Nat) :=
  (List.range conc).map fun i => (s * conc + i, dims.length * 2 + i)

/-- The torus with `conc` nodes per switch. -/
def net (dims : List Nat) (conc : Nat) : Net where
  size := size dims
  conns := fun s => connGo s 0 1 dims
  inj := inj dims conc

/-- `Torus::shortestDistance`, torus.cc:82-101. -/
def shortestDistance (D src dst : Nat) : Nat :=
  let up := if dst > src then dst - src else dst + (D - src)
  let down := if dst > src then src + (D - dst) else src - dst
  if up > down then ((src + D) - dst) % D else ((dst + D) - src) % D

/-- `Torus::shortestPathPositive`, torus.cc:121-134. -/
def shortestPathPositive (D src dst : Nat) : Bool :=
  let up := if dst > src then dst - src else dst + (D - src)
  let down := if dst > src then src + (D - dst) else src - dst
  up ≤ down

/-- The loop of `Torus::minimalDistance`, torus.cc:103-119. -/
def distGo (src dst : Nat) : Nat → List Nat → Nat
  | _, [] => 0
  | div, D :: ds => shortestDistance D ((src / div) % D) ((dst / div) % D) + distGo src dst (div * D) ds

/-- `Torus::minimalDistance`, torus.cc:103-119. -/
def minimalDistance (dims : List Nat) (src dst : Nat) : Nat := distGo src dst 1 dims

/-- `Torus::diameter`, torus.cc:60-64. -/
def diameter : List Nat → Nat
  | [] => 0
  | D :: ds => D / 2 + diameter ds

/-- `TorusMinimalRouter::header`, torus_routing.cc:63-66.  `last_dim` is a `char`: fewer than
128 dimensions are assumed. -/
structure Hdr where
  crossed : Bool := false
  lastDim : Nat := 0
deriving DecidableEq, Repr

/-- `upPath`, torus_routing.cc:92-106: port, virtual channel and new header. -/
def upPath (dim D srcX : Nat) (h : Hdr) : Nat × Nat × Hdr :=
  if srcX = D - 1 then (toPort dim 0, 1, { crossed := true, lastDim := dim })
  else if dim ≠ h.lastDim then (toPort dim 0, 0, { crossed := false, lastDim := dim })
  else (toPort dim 0, if h.crossed then 1 else 0, { h with lastDim := dim })

/-- `downPath`, torus_routing.cc:108-122. -/
def downPath (dim srcX : Nat) (h : Hdr) : Nat × Nat × Hdr :=
  if srcX = 0 then (toPort dim 1, 1, { crossed := true, lastDim := dim })
  else if dim ≠ h.lastDim then (toPort dim 1, 0, { crossed := false, lastDim := dim })
  else (toPort dim 1, if h.crossed then 1 else 0, { h with lastDim := dim })

/-- The loop of `minimalRoute`, torus_routing.cc:124-148; `none` is the abort at its end. -/
def minimalGo (src dst : Nat) (h : Hdr) : Nat → Nat → List Nat → Option (Nat × Nat × Hdr)
  | _, _, [] => none
  | i, div, D :: ds =>
    let srcX := (src / div) % D
    let dstX := (dst / div) % D
    if srcX ≠ dstX then
      if shortestPathPositive D srcX dstX then some (upPath i D srcX h) else some (downPath i srcX h)
    else minimalGo src dst h (i + 1) (div * D) ds

/-- `TorusMinimalRouter::minimalRoute`, torus_routing.cc:124-148. -/
def minimalRoute (dims : List Nat) (src dst : Nat) (h : Hdr) : Option (Nat × Nat × Hdr) :=
  minimalGo src dst h 0 1 dims

/-- `TorusMinimalRouter::route`, torus_routing.cc:150-160, at switch `me` for a packet to
`node`. -/
def route (dims : List Nat) (conc me node : Nat) (h : Hdr) : Option (Nat × Nat × Hdr) :=
  if node / conc = me then some (node % conc + 2 * dims.length, 0, h)
  else minimalRoute dims me (node / conc) h

/-- The router as a relation. -/
def router (dims : List Nat) (conc : Nat) : Router Hdr :=
  fun me node h p vc h' => route dims conc me node h = some (p, vc, h')

end SST.Topo.Torus
