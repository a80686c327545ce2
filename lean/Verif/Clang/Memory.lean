set_option autoImplicit false

/-!
# The bytes that a block under `#pragma sst compute` is charged for

`bin/clang/computeVisitor.cc` and `dataFlow.h`: the visitor gives every array access a label and charges an access unless the same label was accessed
before and, by its analysis of the data flow, still names the same element.

Simplifications: a label is the list of what is appended to it, where the code appends the bytes of identifiers, operators and characters to an array of
128 bytes without a check.  Not modelled: volatile pointers, reads through `*`, assignments within expressions, operators that may skip an operand, calls
and branches.  The numbers are not bounded.
-/

namespace Verif.Clang.Memory

/-- Expressions. -/
inductive E where
  | var (v : Nat)
  | lit (n : Int)
  /-- Binary operators. -/
  | op (o : Nat) (l r : E)
  /-- `base[i]`, an element of `w` bytes. -/
  | idx (w : Nat) (base i : E)
  /-- `base[i]`, itself an array of `w` bytes. -/
  | row (w : Nat) (base i : E)
  | paren (e : E)
  | cast (e : E)
  /-- `-e`, `e++` and other unary operators that read their operand. -/
  | unary (e : E)
  /-- `&e`. -/
  | addr (e : E)
  /-- `object.field` and `object->field`. -/
  | member (object field : Nat)
deriving DecidableEq

/-- Programs. -/
inductive P where
  /-- An expression whose value is used, as in a declaration. -/
  | expr (e : E)
  /-- `l = r` -/
  | assign (l r : E)
  /-- `l += r`, and the same with other operators. -/
  | update (l r : E)
  | seq (a b : P)
  /-- A loop with its variable and its number of rounds. -/
  | loop (v n : Nat) (body : P)

/-- Parts of labels. -/
inductive Tok where
  | var (v : Nat)
  | op (o : Nat)
  | left | right | open | close
deriving DecidableEq

/-- `visitAccessParenExpr`, computeVisitor.cc:80-98: around which expressions parentheses are left out. -/
def bare : E → Bool
  | .paren _ => true
  | .var _ => true
  | .idx _ _ _ => true
  | .row _ _ _ => true
  | _ => false

/-- `checkMemoryAccess` and the functions that it calls, computeVisitor.cc:54-150: what they append to a label. -/
def label : E → List Tok
  | .var v => [.var v]
  | .op o l r => label l ++ [.op o] ++ label r
  | .idx _ b i => label b ++ [.left] ++ label i ++ [.right]
  | .row _ b i => label b ++ [.left] ++ label i ++ [.right]
  | .paren e => if bare e then label e else [.open] ++ label e ++ [.close]
  | .cast e => label e
  | _ => []

/-- The state of the visitor, computeVisitor.h:75-77: `currentGeneration`, the generations of `variables`, and the last reads and writes of `arrays`. -/
structure St where
  gen : Nat
  vars : Nat → Nat
  reads : List Tok → Nat
  writes : List Tok → Nat

/-- The visitor at its beginning, computeVisitor.h:57 and dataFlow.h:117. -/
def St.new : St := ⟨1, fun _ => 0, fun _ => 0, fun _ => 0⟩

/-- `maxGen` of an expression in an access, computeVisitor.cc:54-150, dataFlow.h:88-98, with the last writes of the accesses within it. -/
def dep (s : St) : E → Nat
  | .var v => s.vars v
  | .op _ l r => max (dep s l) (dep s r)
  | .idx w b i => max (max (dep s b) (dep s i)) (s.writes (label (.idx w b i)))
  | .row w b i => max (max (dep s b) (dep s i)) (s.writes (label (.row w b i)))
  | .paren e => dep s e
  | .cast e => dep s e
  | _ => 0

/-- A function with one value changed: an assignment to an entry of a map, computeVisitor.cc:316, dataFlow.h:124, :128. -/
def set {α : Type} [DecidableEq α] (f : α → Nat) (a : α) (n : Nat) : α → Nat := fun b => if b = a then n else f b

/-- The access of an element: `newAccess`, dataFlow.h:121-131, in `visitBodyArraySubscriptExpr`, computeVisitor.cc:286-307, with the bytes that are
added to `readBytes`. -/
def access (w : Nat) (b i : E) (lhs : Bool) (s : St) : St × Nat :=
  let l := label (.idx w b i)
  let m := max (dep s b) (dep s i)
  if lhs then ({ s with writes := set s.writes l s.gen }, 0)
  else ({ s with reads := set s.reads l s.gen }, if s.reads l < m ∨ s.reads l = 0 then w else 0)

/-- `addOperations` for expressions, computeVisitor.cc:196-329, :437-464. -/
def visit : E → Bool → St → St × Nat
  | .var v, lhs, s =>
    let s := { s with gen := s.gen + 1 }
    (if lhs then { s with vars := set s.vars v s.gen } else s, 0)
  | .op _ l r, _, s =>
    let x := visit l false { s with gen := s.gen + 1 }
    let y := visit r false x.1
    (y.1, x.2 + y.2)
  | .idx w b i, lhs, s =>
    let x := visit i false { s with gen := s.gen + 1 }
    let y := visit b false x.1
    let z := access w b i lhs y.1
    (z.1, x.2 + y.2 + z.2)
  | .row w b i, lhs, s =>
    let x := visit i false { s with gen := s.gen + 1 }
    let y := visit b false x.1
    let z := access w b i lhs y.1
    (z.1, x.2 + y.2 + z.2)
  | .paren e, _, s => visit e false { s with gen := s.gen + 1 }
  | .cast e, lhs, s => visit e lhs { s with gen := s.gen + 1 }
  | .unary e, _, s => visit e false { s with gen := s.gen + 1 }
  | .addr e, _, s => visit e false { s with gen := s.gen + 1 }
  | .lit _, _, s => ({ s with gen := s.gen + 1 }, 0)
  | .member _ _, _, s => ({ s with gen := s.gen + 1 }, 0)

/-- `addOperations` for statements, computeVisitor.cc:152-194, :232-268, :420-435, with the count of `addLoopContribution`, :625-660: the control of a
loop is not visited. -/
def visitP : P → St → St × Nat
  | .expr e, s => visit e false s
  | .assign l r, s =>
    let x := visit l true { s with gen := s.gen + 1 }
    let y := visit r false x.1
    (y.1, x.2 + y.2)
  | .update l r, s =>
    let x := visit l true { s with gen := s.gen + 1 }
    let y := visit r false x.1
    (y.1, x.2 + y.2)
  | .seq a b, s =>
    let x := visitP a { s with gen := s.gen + 1 }
    let y := visitP b x.1
    (y.1, x.2 + y.2)
  | .loop _ n body, s =>
    let x := visitP body { s with gen := s.gen + 1 }
    (x.1, n * x.2)

/-- The bytes that are charged for a block, `replaceStmt`, computeVisitor.cc:667-685: `readBytes`, without those written. -/
def charge (p : P) : Nat := (visitP p .new).2

end Verif.Clang.Memory
