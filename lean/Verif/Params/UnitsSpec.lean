import Verif.Params.Units0
set_option autoImplicit false
/-
What numbers and units mean: decimal numbers with an optional fraction and exponent, and
units made of a prefix (kilo is a thousand, kibi is 1024, and so on), a quantity and, for
rates, "per second".
-/
namespace SST.Params.Units

/-- A decimal number as written: sign, digits before and after the point, and an exponent
with its sign. -/
structure Lit where
  neg : Bool
  whole : List Nat
  frac : List Nat
  exp : Option (Bool × List Nat)

/-- The digits are digits, there is at least one, and an exponent has at least one. -/
def Lit.Ok (l : Lit) : Prop :=
  (∀ d ∈ l.whole, d < 10) ∧ (∀ d ∈ l.frac, d < 10) ∧ ¬ (l.whole = [] ∧ l.frac = []) ∧
    ∀ s ds, l.exp = some (s, ds) → ds ≠ [] ∧ ∀ d ∈ ds, d < 10

/-- The character of a digit. -/
def digitChar (d : Nat) : Char := Char.ofNat (48 + d)

/-- The number as text. -/
def Lit.text (l : Lit) : List Char :=
  (if l.neg then ['-'] else []) ++ l.whole.map digitChar ++
    (if l.frac = [] then [] else '.' :: l.frac.map digitChar) ++
    match l.exp with
    | none => []
    | some (s, ds) => 'e' :: (if s then ['-'] else []) ++ ds.map digitChar

/-- The value of a list of digits. -/
def value : List Nat → Nat
  | [] => 0
  | d :: ds => d * 10 ^ ds.length + value ds

/-- The value of the number. -/
def Lit.val (l : Lit) : Rat :=
  let m : Rat := (value l.whole : Rat) + (value l.frac : Rat) / ((10 ^ l.frac.length : Nat) : Rat)
  let m := match l.exp with
    | none => m
    | some (false, ds) => m * ((10 ^ value ds : Nat) : Rat)
    | some (true, ds) => m / ((10 ^ value ds : Nat) : Rat)
  if l.neg then -m else m

/-- Short prefixes and their factors. -/
def shortPrefixes : List (List Char × Nat) := [
  ([], 1),
  (['k'], 10 ^ 3),
  (['K'], 10 ^ 3),
  (['k', 'i'], 2 ^ 10),
  (['K', 'i'], 2 ^ 10),
  (['m'], 10 ^ 6),
  (['M'], 10 ^ 6),
  (['m', 'i'], 2 ^ 20),
  (['M', 'i'], 2 ^ 20),
  (['g'], 10 ^ 9),
  (['G'], 10 ^ 9),
  (['g', 'i'], 2 ^ 30),
  (['G', 'i'], 2 ^ 30),
  (['t'], 10 ^ 12),
  (['T'], 10 ^ 12),
  (['t', 'i'], 2 ^ 40),
  (['T', 'i'], 2 ^ 40),
  (['p'], 10 ^ 15),
  (['P'], 10 ^ 15),
  (['p', 'i'], 2 ^ 50),
  (['P', 'i'], 2 ^ 50)]

/-- Prefixes used with written-out units (compared in lower case). -/
def longPrefixes : List (List Char × Nat) := [
  ([], 1),
  (['k'], 10 ^ 3),
  (['k', 'i', 'l', 'o'], 10 ^ 3),
  (['k', 'i'], 2 ^ 10),
  (['k', 'i', 'b', 'i'], 2 ^ 10),
  (['m'], 10 ^ 6),
  (['m', 'e', 'g', 'a'], 10 ^ 6),
  (['m', 'i'], 2 ^ 20),
  (['m', 'e', 'b', 'i'], 2 ^ 20),
  (['g'], 10 ^ 9),
  (['g', 'i', 'g', 'a'], 10 ^ 9),
  (['g', 'i'], 2 ^ 30),
  (['g', 'i', 'b', 'i'], 2 ^ 30),
  (['t'], 10 ^ 12),
  (['t', 'e', 'r', 'a'], 10 ^ 12),
  (['t', 'i'], 2 ^ 40),
  (['t', 'e', 'b', 'i'], 2 ^ 40),
  (['p'], 10 ^ 15),
  (['p', 'e', 't', 'a'], 10 ^ 15),
  (['p', 'i'], 2 ^ 50),
  (['p', 'e', 'b', 'i'], 2 ^ 50),
  (['t', 'e'], 2 ^ 40),
  (['p', 'e'], 2 ^ 50)]

/-- `b` is a bit, `B` is a byte of eight bits. -/
def shortWords : List (List Char × Nat) := [
  (['b'], 1),
  (['B'], 8)]

/-- Written-out bits and bytes. -/
def longWords : List (List Char × Nat) := [
  (['b', 'i', 't', 's'], 1),
  (['b', 'y', 't', 'e', 's'], 8)]

/-- Per second, in short. -/
def shortPer : List (List Char) := [['p', 's'], ['/', 's'], ['/', 's', 'e', 'c']]

/-- Per second, written out. -/
def longPer : List (List Char) := [['/', 's'], ['/', 's', 'e', 'c'], ['/', 's', 'e', 'c', 'o', 'n', 'd'], [' ', 'p', 'e', 'r', ' ', 's', 'e', 'c', 'o', 'n', 'd']]

/-- `u` is a unit of `r` bits per second. -/
def BitRate (u : List Char) (r : Nat) : Prop :=
  (∃ p ∈ shortPrefixes, ∃ w ∈ shortWords, ∃ s ∈ shortPer, u = p.1 ++ w.1 ++ s ∧ r = p.2 * w.2) ∨
  (∃ p ∈ longPrefixes, ∃ w ∈ longWords, ∃ s ∈ longPer, u.map lower = p.1 ++ w.1 ++ s ∧ r = p.2 * w.2)

/-- Prefixes of seconds: the power of ten to divide by. -/
def timePrefixes : List (List Char × Nat) := [
  (['p'], 12),
  (['n'], 9),
  (['u'], 6),
  (['m'], 3),
  ([], 0)]

/-- The same written out. -/
def timeLongPrefixes : List (List Char × Nat) := [
  (['p', 'i', 'c', 'o'], 12),
  (['n', 'a', 'n', 'o'], 9),
  (['m', 'i', 'c', 'r', 'o'], 6),
  (['m', 'i', 'l', 'l', 'i'], 3)]

/-- Names of the second. -/
def timeWords : List (List Char) := [['s'], ['s', 'e', 'c'], ['s', 'e', 'c', 'o', 'n', 'd', 's']]

/-- `u` (in any case) is a unit of `10^-k` seconds. -/
def TimeUnit (u : List Char) (k : Nat) : Prop :=
  (∃ p ∈ timePrefixes, ∃ w ∈ timeWords, u.map lower = p.1 ++ w ∧ k = p.2) ∨
  (∃ p ∈ timeLongPrefixes, u.map lower = p.1 ++ ['s', 'e', 'c', 'o', 'n', 'd', 's'] ∧ k = p.2)

/-- Decimal prefixes of hertz (compared in lower case). -/
def decPrefixes : List (List Char × Nat) := [
  ([], 1),
  (['k'], 10 ^ 3),
  (['m'], 10 ^ 6),
  (['g'], 10 ^ 9)]

/-- `u` (in any case) is a unit of `f` hertz. -/
def FreqUnit (u : List Char) (f : Nat) : Prop := ∃ p ∈ decPrefixes, u.map lower = p.1 ++ ['h', 'z'] ∧ f = p.2

/-- Decimal prefixes of sizes. -/
def sizePrefixes : List (List Char × Nat) := [
  ([], 1),
  (['K'], 10 ^ 3),
  (['M'], 10 ^ 6),
  (['G'], 10 ^ 9),
  (['T'], 10 ^ 12)]

/-- Names of the byte. -/
def sizeWords : List (List Char) := [['B'], ['b', 'y', 't', 'e', 's'], ['B', 'y', 't', 'e', 's']]

/-- `u` is a unit of `b` bytes. -/
def SizeUnit (u : List Char) (b : Nat) : Prop := ∃ p ∈ sizePrefixes, ∃ w ∈ sizeWords, u = p.1 ++ w ∧ b = p.2

/-- Text that cannot continue a number: it does not start with a digit, a point, an `e` or
an `x`. -/
def Stops (r : List Char) : Prop :=
  ∀ c ∈ r.head?, digit? c = none ∧ c ≠ '.' ∧ lower c ≠ 'e' ∧ lower c ≠ 'x'

end SST.Params.Units
