/-
Model of sstmac/common/timestamp.h and sstmac/common/timestamp.cc.

Tick counts are `uint64_t` in the source, so they are `BitVec 64` here and all
arithmetic wraps exactly as it does in C++ (unsigned arithmetic).
The floating point constructors and scalings (timestamp.h:119-125,
timestamp.cc:195-208) are not modelled.
-/
namespace SST.Time

/-- `tick_t`, sstmac/common/timestamp.h:85 (`typedef uint64_t tick_t`). -/
abbrev Ticks := BitVec 64

/-- `class TimeDelta`, sstmac/common/timestamp.h:79-200: one 64-bit tick count. -/
structure TimeDelta where
  ticks : Ticks
deriving DecidableEq, Repr

/-- `struct Timestamp`, sstmac/common/timestamp.h:202-266: an epoch and a delta. -/
structure Timestamp where
  epochs : BitVec 64
  time : TimeDelta
deriving DecidableEq, Repr

/-- `Timestamp::carry_bits_mask`, timestamp.h:263. -/
def carryBitsMask : BitVec 64 := 0
/-- `Timestamp::remainder_bits_mask`, timestamp.h:264 (`~uint64_t(0)`). -/
def remainderBitsMask : BitVec 64 := ~~~0
/-- `Timestamp::carry_bits_shift`, timestamp.h:265. -/
def carryBitsShift : Nat := 0

namespace TimeDelta
/-- `operator+(TimeDelta, TimeDelta)`, timestamp.cc:177-181, 210-215. -/
def add (a b : TimeDelta) : TimeDelta := ⟨a.ticks + b.ticks⟩
/-- `operator-(TimeDelta, TimeDelta)`, timestamp.cc:186-190, 217-222 (wraps). -/
def sub (a b : TimeDelta) : TimeDelta := ⟨a.ticks - b.ticks⟩
/-- `TimeDelta::operator==`, timestamp.h:172-174. -/
def eq (a b : TimeDelta) : Bool := a.ticks == b.ticks
/-- `TimeDelta::operator<`, timestamp.h:180-182. -/
def lt (a b : TimeDelta) : Bool := a.ticks.ult b.ticks
/-- `TimeDelta::operator<=`, timestamp.h:184-186. -/
def le (a b : TimeDelta) : Bool := a.ticks.ule b.ticks
/-- `TimeDelta::operator>`, timestamp.h:188-190. -/
def gt (a b : TimeDelta) : Bool := b.ticks.ult a.ticks
/-- `TimeDelta::operator>=`, timestamp.h:192-194. -/
def ge (a b : TimeDelta) : Bool := b.ticks.ule a.ticks

/-- `operator/(TimeDelta, TimeDelta)`, timestamp.h:273-275. Division by a zero
delta is undefined behaviour in C++, modelled as `none`. -/
def div (a b : TimeDelta) : Option (BitVec 64) :=
  if b.ticks = 0 then none else some (a.ticks / b.ticks)

/-- `TimeDelta::divideUp`, timestamp.h:133-141. Both operands are first narrowed
to `uint32_t`; a zero (narrowed) denominator is undefined behaviour (`none`). -/
def divideUp (num denom : TimeDelta) : Option (BitVec 32) :=
  let x := num.ticks.setWidth 32
  let y := denom.ticks.setWidth 32
  if y = 0 then none
  else
    let xy := x / y
    some (if x % y = 0 then xy else xy + 1)
end TimeDelta

namespace Timestamp
/-- `Timestamp()`, timestamp.h:206-208. -/
def zero : Timestamp := ⟨0, ⟨0⟩⟩

/-- `Timestamp::max()`, timestamp.h:220-222. -/
def maxTime : Timestamp := ⟨0, ⟨BitVec.allOnes 64⟩⟩

/-- `Timestamp::empty()`, timestamp.h:224-226. -/
def empty (a : Timestamp) : Bool := a.time.ticks == 0

/-- `operator+(Timestamp, TimeDelta)`, timestamp.h:277-283; `operator+=`
(timestamp.cc:148-156) computes the same value. -/
def add (a : Timestamp) (b : TimeDelta) : Timestamp :=
  let sum := a.time.ticks + b.ticks
  let carry := (sum &&& carryBitsMask) <<< carryBitsShift
  let rem := sum &&& remainderBitsMask
  ⟨carry + a.epochs, ⟨rem⟩⟩

/-- `operator-(Timestamp, Timestamp)`, timestamp.h:285-291; `none` is `::abort()`. -/
def diff (a b : Timestamp) : Option TimeDelta :=
  if a.epochs = b.epochs then some (a.time.sub b.time) else none

/-- `operator+(Timestamp, Timestamp)`, timestamp.h:297-301. -/
def addStamp (a b : Timestamp) : Timestamp :=
  let tmp := b.add a.time
  { tmp with epochs := tmp.epochs + a.epochs }

/-- `operator-(Timestamp, TimeDelta)`, timestamp.h:303-313. -/
def subDelta (a : Timestamp) (b : TimeDelta) : Timestamp :=
  if a.time.gt b then { a with time := a.time.sub b }
  else ⟨a.epochs - 1, ⟨remainderBitsMask - b.ticks⟩⟩

/-- `operator>=`, timestamp.h:315-321. -/
def ge (a b : Timestamp) : Bool :=
  if a.epochs = b.epochs then a.time.ge b.time else b.epochs.ule a.epochs
/-- `operator!=`, timestamp.h:323-329. -/
def ne (a b : Timestamp) : Bool :=
  if a.epochs = b.epochs then !(a.time.eq b.time) else true
/-- `operator<`, timestamp.h:331-337. -/
def lt (a b : Timestamp) : Bool :=
  if a.epochs = b.epochs then a.time.lt b.time else a.epochs.ult b.epochs
/-- `operator==`, timestamp.h:339-341. -/
def eq (a b : Timestamp) : Bool := (a.epochs == b.epochs) && a.time.eq b.time
/-- `operator>`, timestamp.h:343-345. -/
def gt (a b : Timestamp) : Bool := lt b a
/-- `operator<=`, timestamp.h:347-353. Note: compares `time`, not `epochs`, when
the epochs differ, exactly as in the source. -/
def le (a b : Timestamp) : Bool :=
  if a.epochs = b.epochs then a.time.le b.time else a.time.lt b.time
end Timestamp

end SST.Time
