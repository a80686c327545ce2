/-!
Specification of reductions: the combination of the contributions of consecutive ranks.
-/
set_option autoImplicit false
namespace SST.Coll

/-- `d lo ∘ d (lo+1) ∘ ... ∘ d (lo+k)`, from left to right: every rank exactly once. -/
def red {V : Type} (op : V → V → V) (d : Nat → V) (lo : Nat) : Nat → V
  | 0 => d lo
  | k + 1 => op (red op d lo k) (d (lo + k + 1))

theorem red_append {V : Type} (op : V → V → V) (assoc : ∀ a b c, op (op a b) c = op a (op b c))
    (d : Nat → V) (lo k k' : Nat) :
    op (red op d lo k) (red op d (lo + k + 1) k') = red op d lo (k + k' + 1) := by
  induction k' with
  | zero => rfl
  | succ k' ih =>
    show op (red op d lo k) (op (red op d (lo + k + 1) k') (d (lo + k + 1 + k' + 1))) =
      op (red op d lo (k + k' + 1)) (d (lo + (k + k' + 1) + 1))
    rw [← assoc, ih]
    have : lo + k + 1 + k' + 1 = lo + (k + k' + 1) + 1 := by omega
    rw [this]

example : red (· + ·) (fun r => 10 ^ r) 0 3 = 1111 := by decide

end SST.Coll
