set_option autoImplicit false
/-
Model of the random number generators: sstmac/common/rng.h, sstmac/common/rng.cc, and of the
random numbers of routers, sstmac/hardware/router/router.cc:68-115.
-/
namespace SST.Util.Rng

/-- `rngint_t`, rng.h:92. -/
abbrev W := BitVec 32

/-- `class MWC`, rng.h:158-200. -/
structure Mwc where
  z : W
  w : W
deriving DecidableEq

/-- `MWC::value`, rng.h:164-170, 186-188. -/
def Mwc.value (s : Mwc) : W × Mwc :=
  let z := 36969#32 * (s.z &&& 65535#32) + (s.z >>> 16)
  let w := 18000#32 * (s.w &&& 65535#32) + (s.w >>> 16)
  ((z <<< 16) + (w &&& 65535#32), ⟨z, w⟩)

/-- `MWC::vec_reseed`, rng.cc:156-169, with the defaults of rng.cc:55-56. -/
def Mwc.reseed (_ : Mwc) (seeds : List W) : Mwc := ⟨seeds.getD 0 362436069#32, seeds.getD 1 521288629#32⟩

/-- `class SHR3`, rng.h:216-238. -/
structure Shr3 where
  jsr : W
deriving DecidableEq

/-- `SHR3::value`, rng.cc:536-544. -/
def Shr3.value (s : Shr3) : W × Shr3 :=
  let a := s.jsr ^^^ (s.jsr <<< 17)
  let b := a ^^^ (a >>> 13)
  let c := b ^^^ (b <<< 5)
  (c, ⟨c⟩)

/-- `SHR3::vec_reseed`, rng.cc:212-220. -/
def Shr3.reseed (_ : Shr3) (seeds : List W) : Shr3 := ⟨seeds.getD 0 123456789#32⟩

/-- `class CONG`, rng.h:293-321. -/
structure Cong where
  jcong : W
deriving DecidableEq

/-- `CONG::value`, rng.h:307-309. -/
def Cong.value (s : Cong) : W × Cong :=
  let x := 69069#32 * s.jcong + 1234567#32
  (x, ⟨x⟩)

/-- `CONG::vec_reseed`, rng.cc:263-271. -/
def Cong.reseed (_ : Cong) (seeds : List W) : Cong := ⟨seeds.getD 0 380116160#32⟩

/-- `class SimpleCombo`, rng.h:333-368. -/
structure Simple where
  mwc : Mwc
  cong : Cong
  shr3 : Shr3
deriving DecidableEq

/-- `SimpleCombo::value`, rng.h:358-360. -/
def Simple.value (s : Simple) : W × Simple :=
  ((s.mwc.value.1 ^^^ s.cong.value.1) + s.shr3.value.1, ⟨s.mwc.value.2, s.cong.value.2, s.shr3.value.2⟩)

/-- `SimpleCombo::vec_reseed`, rng.cc:345-364: two seeds for `MWC`, the third for `SHR3`, the
fourth for `CONG`. -/
def Simple.reseed (s : Simple) (seeds : List W) : Simple :=
  ⟨s.mwc.reseed (seeds.take 2), s.cong.reseed ((seeds.drop 3).take 1), s.shr3.reseed ((seeds.drop 2).take 1)⟩

/-- The first numbers of a `SimpleCombo`. -/
def Simple.take : Nat → Simple → List W × Simple
  | 0, s => ([], s)
  | n + 1, s =>
    let (v, s) := s.value
    let (vs, s) := s.take n
    (v :: vs, s)

/-- `class Table256`, rng.h:371-389: the generator for the table, the table, the position. -/
structure Table where
  seeder : Simple
  t : BitVec 8 → W
  c : BitVec 8

/-- `Table256::vec_reseed`, rng.cc:385-393. -/
def Table.reseed (s : Table) (seeds : List W) : Table :=
  let vs := (s.seeder.reseed seeds).take 256
  ⟨vs.2, fun i => vs.1.getD i.toNat 0, 0⟩

/-- Write one entry of the table. -/
def put (t : BitVec 8 → W) (i : BitVec 8) (v : W) : BitVec 8 → W := fun j => if j = i then v else t j

/-- `LFIB4::value`, rng.h:423-430. -/
def lfib4 (s : Table) : W × Table :=
  let v := s.t s.c + s.t (s.c + 58) + s.t (s.c + 119) + s.t (s.c + 1 + 178)
  (v, { s with t := put s.t s.c v, c := s.c + 1 })

/-- `class SWB`, rng.h:454-474. -/
structure Swb where
  tab : Table
  x : W
  y : W

/-- `SWB::vec_reseed`, rng.cc:467-473. -/
def Swb.reseed (s : Swb) (seeds : List W) : Swb := ⟨s.tab.reseed seeds, 0, 0⟩

/-- `SWB::value`, rng.cc:546-558. -/
def Swb.value (s : Swb) : W × Swb :=
  let i1 := s.tab.c + 237
  let i2 := s.tab.c + 15
  let i3 := s.tab.c + 1
  let x := s.tab.t i2
  let shifter : W := if x < s.y then 1 else 0
  let y := s.tab.t i3
  let v := x - (y + shifter)
  (v, ⟨{ s.tab with t := put s.tab.t i1 v, c := i3 }, x, y⟩)

/-- `class Combo`, rng.h:487-517. -/
structure Combo where
  swb : Swb
  simple : Simple

/-- `Combo::value`, rng.h:495-500. -/
def Combo.value (s : Combo) : W × Combo :=
  let (k, a) := s.simple.value
  let (r, b) := s.swb.value
  (k + r, ⟨b, a⟩)

/-- `Combo::vec_reseed`, rng.cc:512-534: four seeds for `SWB`, four for `SimpleCombo`, which is
then advanced by 256 numbers. -/
def Combo.reseed (s : Combo) (seeds : List W) : Combo :=
  ⟨s.swb.reseed (seeds.take 4), ((s.simple.reseed ((seeds.drop 4).take 4)).take 256).2⟩

/-- `UniformInteger::value_in_range`, rng.h:103-105; `none` is a division by zero. -/
def inRange (v range : W) : Option W := if range = 0 then none else some (v % range)

/-- `UniformInteger::realvalue`, rng.h:116-134, as an exact number; `rngint_t` has four bytes.
In the code the quotient is a double. -/
def realvalue (v : W) (includeZero includeOne : Bool) : Rat :=
  let scaling : Rat := 4294967295
  let n : Nat := if includeZero then v.toNat else v.toNat / 2 + 1
  let scaling := if includeZero then scaling else scaling / 2 + 1
  let scaling := if includeOne then scaling - 1 else scaling
  (n : Rat) / scaling

/-- The random numbers of a router, router.cc:68-83, 104-115: its seed if it has one, and its
generator. -/
structure Router where
  seed : Option W
  rng : Mwc

/-- `Router::randomNumber`, router.cc:104-115.  `none` is undefined behaviour: a shift by 32 or
more, or a range of zero. -/
def Router.randomNumber (r : Router) (max attempt seed : W) : Option (W × Router) :=
  match r.seed with
  | some s =>
    if attempt.toNat + 5 < 32 then
      let rng := r.rng.reseed [(seed + 5) * 7 + 0 * attempt * 42 + 3, (s * (seed + 31)) <<< (attempt.toNat + 5)]
      let (v, rng) := rng.value
      (inRange v max).map fun x => (x, { r with rng := rng })
    else none
  | none =>
    let (v, rng) := r.rng.value
    (inRange v max).map fun x => (x, { r with rng := rng })

end SST.Util.Rng
