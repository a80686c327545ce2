import Verif.Os.Pthread
set_option autoImplicit false

/-!
# What programs may expect of threads, keys and affinities: vocabulary

Words for histories, the lists of what happened and of what could be seen.
-/

namespace Verif.Os.Pth

/-- The value that thread `c` stored last under key `k`; 0 if it stored none. -/
def lastSet (c k : Nat) (h : List (Act × Out)) : Nat :=
  h.foldl (fun v e => match e.1 with | .set c' k' w => if c' = c ∧ k' = k then w else v | _ => v) 0

/-- Whether a thread gets a number by this. -/
def isBirth : Act → Bool
  | .launch _ | .elsewhere | .create _ _ | .std _ => true
  | _ => false

/-- The number of threads of the simulation so far. -/
def births (h : List (Act × Out)) : Nat := (h.filter fun e => isBirth e.1).length

/-- The joins and detachments that name thread `k`. -/
def names (k : Nat) : Act × Out → Bool
  | (_, .joined k' _) | (_, .blocked k') | (_, .detached k') => k' == k
  | (.join _ _, .ub k') | (.joinStd _ _, .ub k') | (.detach _ _, .ub k') => k' == k
  | _ => false

/-- Whether thread `k` was created detached by this. -/
def bornDetached (k : Nat) : Act × Out → Bool
  | (.create _ (some (true, _)), .made k' _) => k' == k
  | _ => false

/-- Whether thread `k` ended by this. -/
def ends (k : Nat) : Act × Out → Bool
  | (.finish c _, .ended _ _) => c == k
  | _ => false

/-- The cpu mask of a new thread: that of its attributes, or all cores. -/
def bornMask (attr : Option (Bool × BitVec 64)) : BitVec 64 :=
  match attr with
  | some (_, m) => m
  | none => allCores

/-- The cpu mask that thread `c` should have: the one it set last for itself, or the one it was
created with. -/
def lastMask (c : Nat) (h : List (Act × Out)) : BitVec 64 :=
  h.foldl (fun v e =>
    match e with
    | (.create _ attr, .made k _) => if k = c then bornMask attr else v
    | (.schedSet c' m, _) => if c' = c then m else v
    | _ => v) allCores

/-- How often thread `k` was named by joins and detachments, created detached included. -/
def weight (k : Nat) (h : List (Act × Out)) : Nat :=
  (h.filter (names k)).length + (h.filter (bornDetached k)).length

/-- Programs that join or detach a thread at most once, as they must. -/
def Fair (h : List (Act × Out)) : Prop := ∀ k, weight k h ≤ 1

end Verif.Os.Pth
