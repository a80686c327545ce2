/-
Three-dimensional process grids (sstmac/common/cartgrid.cc).

Numbers are natural numbers; the doubles used for areas are exact below `2^53`. Loops that the code runs
until a condition holds take `fuel`; running out of it is `none`.
-/
set_option autoImplicit false
namespace SST.Util

/-- Removing the factors two, cartgrid.cc:121-123: the factors and what is left. -/
def factor2 : Nat → Nat → Option (List Nat × Nat)
  | 0, _ => none
  | f + 1, x => if x > 1 ∧ x % 2 = 0 then (factor2 f (x / 2)).map fun r => (2 :: r.1, r.2) else some ([], x)

/-- Removing the factors `d`, cartgrid.cc:127-135. -/
def strip (d : Nat) : Nat → Nat → Option (List Nat × Nat)
  | 0, _ => none
  | f + 1, x => if x % d = 0 then (strip d f (x / d)).map fun r => (d :: r.1, r.2) else some ([], x)

/-- The loop over the odd numbers, cartgrid.cc:126-136. -/
def stripAll : List Nat → Nat → Option (List Nat × Nat)
  | [], x => some ([], x)
  | d :: ds, x => match strip d (x + 1) x with
    | none => none
    | some (fs, x) => (stripAll ds x).map fun r => (fs ++ r.1, r.2)

/-- The odd numbers from 3 to `sq`. -/
def odds (sq : Nat) : List Nat := (List.range ((sq - 1) / 2)).map fun k => 2 * k + 3

/-- `primefactor_i`, cartgrid.cc:115-141; `sq`: the value `(int) sqrt((double) x) + 1`. -/
def primefactor (sq x : Nat) : Option (List Nat) :=
  match factor2 (x + 1) x with
  | none => none
  | some (twos, x) => match stripAll (odds sq) x with
    | none => none
    | some (fs, x) => some (if x > 1 ∨ twos ++ fs = [] then twos ++ fs ++ [x] else twos ++ fs)

/-- The distinct factors and how often each occurs in a row, cartgrid.cc:175-181. -/
def runs : List Nat → List (Nat × Nat)
  | [] => []
  | x :: l => match runs l with
    | (y, c) :: rest => if x = y then (y, c + 1) :: rest else (x, 1) :: (y, c) :: rest
    | [] => [(x, 1)]

/-- `Counter_next`, cartgrid.cc:70-82: `max_counts` and `cur_counts`. -/
def next : List Nat → List Nat → List Nat
  | m :: ms, c :: cs => if c + 1 > m then 0 :: next ms cs else (c + 1) :: cs
  | _, _ => []

/-- `Counter_is_zero`, cartgrid.cc:84-90. -/
def isZero (cs : List Nat) : Bool := cs.all (· == 0)

/-- `Counter_product`, cartgrid.cc:92-103. -/
def product (bs cs : List Nat) : Nat := (bs.zip cs).foldl (fun x p => x * p.1 ^ p.2) 1 * (if isZero cs then 0 else 1)

/-- The loops `for (; !Counter_is_zero(c); Counter_next(c))`, cartgrid.cc:188 and 191. -/
def cycle {α : Type} (ms : List Nat) (body : List Nat → α → Option α) : Nat → List Nat → α → Option α
  | 0, _, _ => none
  | f + 1, cur, a => if isZero cur then some a else match body cur a with
    | none => none
    | some a => cycle ms body f (next ms cur) a

/-- The number of states of a counter. -/
def states : List Nat → Nat
  | [] => 1
  | m :: ms => (m + 1) * states ms

/-- `min_area` and `x`, `y`, `z` if they have been set. -/
abbrev Best := Nat × Option (Nat × Nat × Nat)

/-- The body of the inner loop, cartgrid.cc:192-202. -/
def try3 (n : Nat) (bs c1 c2 : List Nat) (b : Best) : Best :=
  let tf1 := product bs c1
  let tf2 := product bs c2
  let tf3 := n / tf1 / tf2
  let area := tf1 * tf2 + tf2 * tf3 + tf1 * tf3
  if area < b.1 then (area, some (tf1, tf2, tf3)) else b

/-- The body of the outer loop, cartgrid.cc:190-203; the remaining counts are `Counter_max_cur_sub`,
cartgrid.cc:105-113. -/
def tryAll (n : Nat) (bs ms c1 : List Nat) (b : Best) : Option Best :=
  let ms2 := List.zipWith (· - ·) ms c1
  let zero := ms2.map fun _ => 0
  cycle ms2 (fun c2 b => some (try3 n bs c1 c2 b)) (states ms2) (next ms2 zero) b

/-- `genCartGrid`, cartgrid.cc:143-205. `none`: a loop does not end or `x`, `y` and `z` are not set. -/
def genCartGrid (sq n : Nat) : Option (Nat × Nat × Nat) :=
  match primefactor sq n with
  | none => none
  | some factors =>
    if n = 1 then some (n, 1, 1)
    else match factors with
    | [] => none
    | [_] => some (n, 1, 1)
    | [a, b] => some (a, b, 1)
    | [a, b, c] => some (a, b, c)
    | fs =>
      let r := runs fs
      let bs := r.map (·.1)
      let ms := r.map (·.2)
      let zero := ms.map fun _ => 0
      match cycle ms (tryAll n bs ms) (states ms) (next ms zero) (2 * n + 1, none) with
      | none => none
      | some b => b.2

end SST.Util
