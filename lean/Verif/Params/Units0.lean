set_option autoImplicit false
/-
Model of the reading of numbers: `strtod` of the C library as used by
sprockit/sprockit/units.cc and sprockit/sprockit/sim_parameters.cc:67-101.

Simplifications: values are exact rational numbers, not doubles; hexadecimal numbers,
infinities and NaNs, which `strtod` accepts, are a separate outcome `special`.
-/
namespace SST.Params.Units

/-- The value of a digit character. -/
def digit? (c : Char) : Option Nat :=
  if 48 ≤ c.toNat ∧ c.toNat ≤ 57 then some (c.toNat - 48) else none

/-- `isspace` in the C locale. -/
def isSpace (c : Char) : Bool := c == ' ' || (9 ≤ c.toNat && c.toNat ≤ 13)

/-- `tolower` in the C locale. -/
def lower (c : Char) : Char :=
  if 65 ≤ c.toNat ∧ c.toNat ≤ 90 then Char.ofNat (c.toNat + 32) else c

/-- The longest prefix of digits: their values, and the rest. -/
def digits : List Char → List Nat × List Char
  | [] => ([], [])
  | c :: cs =>
    match digit? c with
    | some d => let (ds, r) := digits cs; (d :: ds, r)
    | none => ([], c :: cs)

/-- The number written by some digits. -/
def decimal (ds : List Nat) : Nat := ds.foldl (fun a d => 10 * a + d) 0

/-- A sign, if there is one: whether it is minus, and the rest. -/
def sign : List Char → Bool × List Char
  | '-' :: r => (true, r)
  | '+' :: r => (false, r)
  | r => (false, r)

/-- The exponent, if there is one: an `e`, an optional sign and at least one digit. -/
def exponent : List Char → Int × List Char
  | [] => (0, [])
  | c :: r =>
    if c = 'e' ∨ c = 'E' then
      let (neg, r') := sign r
      match digits r' with
      | ([], _) => (0, c :: r)
      | (ds, rest) => (if neg then -(decimal ds : Int) else decimal ds, rest)
    else (0, c :: r)

/-- A fraction, if there is one: digits after a point. -/
def fraction : List Char → List Nat × List Char
  | '.' :: r => digits r
  | r => ([], r)

/-- Ten to an integer power. -/
def pow10 (e : Int) : Rat := if 0 ≤ e then ((10 ^ e.toNat : Nat) : Rat) else 1 / ((10 ^ (-e).toNat : Nat) : Rat)

/-- What `strtod` finds: no number, something other than a decimal number, or a number and
the characters after it. -/
inductive Num
  | none
  | special
  | ok (v : Rat) (rest : List Char)
deriving DecidableEq

/-- Whether the text starts like a hexadecimal number, an infinity or a NaN. -/
def isSpecial : List Char → Bool
  | a :: b :: c :: _ =>
    (a == '0' && lower b == 'x') ||
      (lower a == 'i' && lower b == 'n' && lower c == 'f') || (lower a == 'n' && lower b == 'a' && lower c == 'n')
  | [a, b] => a == '0' && lower b == 'x'
  | _ => false

/-- `strtod`. -/
def strtod (s : List Char) : Num :=
  let (neg, s₁) := sign (s.dropWhile isSpace)
  if isSpecial s₁ then .special
  else
    let (ip, s₂) := digits s₁
    let (fp, s₃) := fraction s₂
    if ip = [] ∧ fp = [] then .none
    else
      let (e, rest) := exponent s₃
      let m : Rat := ((decimal (ip ++ fp) : Nat) : Rat) * pow10 (e - fp.length)
      .ok (if neg then -m else m) rest

end SST.Params.Units
