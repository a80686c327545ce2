import Verif.Params.UnitTables
set_option autoImplicit false
/-
Model of quantities with units (sprockit/sprockit/units.cc:234-503,
sprockit/sprockit/sim_parameters.cc:67-101, sim_parameters.h:503-541).
-/
namespace SST.Params.Units

/-- `std::map` after all assignments: the last one for a name counts. -/
def find (t : List (List (List Char) × Nat)) (u : List Char) : Option Nat :=
  t.foldl (fun acc row => if u ∈ row.1 then some row.2 else acc) none

/-- What a reader returns: an error flag, a value that is not modelled, or the value. -/
inductive Res
  | bad
  | special
  | ok (v : Rat)
deriving DecidableEq

/-- The common beginning of the readers, units.cc:248-274, 348-373, 400-426, 454-480: the
number, then the text after it without leading blanks.  (`errno` is cleared after `strtod`,
so its checks never fail.) -/
def withUnit (s : List Char) (f : Rat → List Char → Res) : Res :=
  match strtod s with
  | .none => .bad
  | .special => .special
  | .ok v rest => f v (rest.dropWhile (· == ' '))

/-- `getBandwidth`, units.cc:234-296: bytes per second. -/
def getBandwidth (s : List Char) : Res :=
  withUnit s fun v u =>
    if u = [] then .ok v
    else match find abbrTable u with
      | some m => .ok (v * (m : Rat) / 8)
      | none => match find fullTable (u.map lower) with
        | some m => .ok (v * (m : Rat) / 8)
        | none => .bad

/-- A double converted to an integer: the fraction is dropped. -/
def trunc (v : Rat) : Int := if 0 ≤ v then v.floor else -(-v).floor

/-- `byteLength`, units.cc:340-387: bytes, as an integer. -/
def byteLength (s : List Char) : Res :=
  withUnit s fun v u =>
    if u = [] then .ok (trunc v)
    else match find lengthTable u with
      | some m => .ok (trunc (v * (m : Rat)))
      | none => .bad

/-- `getTimeDelta`, units.cc:389-441: seconds. -/
def getTimeDelta (s : List Char) : Res :=
  withUnit s fun v u =>
    if u = [] then .ok v
    else match find timeTable (u.map lower) with
      | some k => .ok (v * pow10 (-(k : Int)))
      | none => .bad

/-- `getFrequency`, units.cc:443-496: hertz. -/
def getFrequency (s : List Char) : Res :=
  withUnit s fun v u =>
    if u = [] then .ok v
    else match find freqTable (u.map lower) with
      | some m => .ok (v * (m : Rat))
      | none => .bad

/-- `getQuantityWithUnits`, sim_parameters.cc:67-90: the first reader that accepts the text;
then a plain number.  `SST::UnitAlgebra` (sim_parameters.h:503-541) aborts on `bad`. -/
def getQuantity (s : List Char) : Res :=
  match getTimeDelta s with
  | .ok v => .ok v
  | .special => .special
  | .bad =>
    match getBandwidth s with
    | .ok v => .ok v
    | .special => .special
    | .bad =>
      match getFrequency s with
      | .ok v => .ok v
      | .special => .special
      | .bad =>
        match byteLength s with
        | .ok v => .ok v
        | .special => .special
        | .bad =>
          match strtod s with
          | .none => .bad
          | .special => .special
          | .ok v rest => if rest.dropWhile (· == ' ') = [] then .ok v else .bad

end SST.Params.Units
