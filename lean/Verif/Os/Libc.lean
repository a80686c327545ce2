/-
The calls of the C library that skeletons make and the simulator replaces (sstmac/main/util.cc,
sstmac/null_buffer.h): memory, the name of the host, times read from parameters.

Addresses are numbers, memory is a function from addresses to bytes.  The simulator reserves a
range of addresses that cannot be accessed; pointers into it stand for buffers without data.
-/
set_option autoImplicit false
namespace SST.Os.Libc

/-- `sstmac_nullptr_range`, operating_system.cc:175-176. -/
def range : Nat := 2 ^ 30

/-- `sstmac_nullptr_recv`, operating_system.cc:183; `base` is `sstmac_nullptr`, which is also
`sstmac_nullptr_send`. -/
def recvBase (base : Nat) : Nat := base + range / 2

/-- `isNonNullBuffer`, null_buffer.h:66-73. -/
def isReal (base p : Nat) : Bool := p ≠ 0 && (p < base || base + range ≤ p)

/-- What the modelled processor is asked to do: `computeBlockWrite` and `computeBlockMemcpy`,
app.cc:504-520. -/
inductive Charge where
  | write (bytes : Nat)
  | copy (bytes : Nat)
deriving DecidableEq, Repr

/-- What a call does. -/
structure Out where
  /-- memory afterwards -/
  mem : Nat → Nat
  /-- the ranges of addresses that were accessed: first address and length -/
  touched : List (Nat × Nat)
  /-- what is charged -/
  charge : Option Charge
  /-- the pointer that is returned -/
  ret : Nat

/-- `sstmac_memset`, util.cc:103-115. -/
def memset (base p v n : Nat) (mem : Nat → Nat) : Out :=
  { mem := if isReal base p then fun a => if p ≤ a ∧ a < p + n then v % 256 else mem a else mem
    touched := if isReal base p then [(p, n)] else []
    charge := if n > 128 then some (.write n) else none
    ret := p }

/-- `sstmac_memcpy`, util.cc:117-129. -/
def memcpy (base d s n : Nat) (mem : Nat → Nat) : Out :=
  { mem := if isReal base d && isReal base s then fun a => if d ≤ a ∧ a < d + n then mem (s + (a - d)) else mem a else mem
    touched := if isReal base d && isReal base s then [(d, n), (s, n)] else []
    charge := if n ≥ 128 then some (.copy n) else none
    ret := d }

/-- `sstmac_gethostname`, util.cc:174-184: the returned value and the bytes that are written to
the caller's array of `len` bytes (`strcpy` ends with a zero). -/
def gethostname (host : List Nat) (len : Nat) : Int × List Nat :=
  if host.length > len then (-1, []) else (0, host ++ [0])

/-- A call of `sstmac_advance_time`: the application, the address of the name, the name there. -/
structure Advance where
  /-- the application -/
  aid : Nat
  /-- the address of the argument -/
  ptr : Nat
  /-- the name of a parameter found there -/
  name : Nat
deriving DecidableEq, Repr

/-- The table `cache`, util.cc:207-208, by application and address, and the times charged so far. -/
structure Clock where
  /-- `cache` -/
  cache : Nat → Nat → Option Nat := fun _ _ => none
  /-- the times given to `compute` -/
  charged : List Nat := []

/-- `sstmac_advance_time`, util.cc:202-216; `param aid name` is the value of a parameter of the
application. -/
def advance (param : Nat → Nat → Nat) (c : Clock) (x : Advance) : Clock :=
  match c.cache x.aid x.ptr with
  | some v => { c with charged := c.charged ++ [v] }
  | none =>
    let v := param x.aid x.name
    { cache := fun a p => if a = x.aid ∧ p = x.ptr then some v else c.cache a p, charged := c.charged ++ [v] }

/-- `getAppUnitParam` for a `double`, util.cc:78-80 and 90-92: values in thousandths.  Without a default
the value is returned, with a default its part before the point (`getRoundedValue`,
sim_parameters.h:520-522). -/
def unitParam (value : Option Int) (dflt : Option Int) : Option Int :=
  match dflt with
  | none => value
  | some d => some ((value.getD d).tdiv 1000 * 1000)

end SST.Os.Libc
