/-
Random shuffling (sstmac/common/rng.h).
-/
set_option autoImplicit false
namespace SST.Util

/-- `swap(begin[i], begin[j])`. `none`: an index is out of range. -/
def swapAt {α : Type} (l : List α) (i j : Nat) : Option (List α) :=
  match l[i]?, l[j]? with
  | some a, some b => some ((l.set i b).set j a)
  | _, _ => none

/-- `value() % range` with a range that is narrowed to 32 bits, rng.h:103-105 and 533-535. `none`: division
by zero. -/
def inRange (v range : Nat) : Option Nat := if range % 2^32 = 0 then none else some (v % (range % 2^32))

/-- `deterministic_shuffle`, rng.h:73-82: the loop from `i` down to 1. `v i` is the random number drawn
in the round of `i`. -/
def shuffleFrom {α : Type} (v : Nat → Nat) : Nat → List α → Option (List α)
  | 0, l => some l
  | i + 1, l => match inRange (v (i + 1)) (i + 2) with
    | none => none
    | some j => match swapAt l (i + 1) j with
      | none => none
      | some l' => shuffleFrom v i l'

/-- `random_shuffle`, rng.h:85-90. -/
def shuffle {α : Type} (v : Nat → Nat) (l : List α) : Option (List α) := shuffleFrom v (l.length - 1) l

end SST.Util
