set_option autoImplicit false

/-!
# The cost of a block under `#pragma sst compute`

`bin/clang/computeVisitor.cc` and `computePragma.cc`: the compiler reads the block, counts its operations and replaces it by code that computes
their number at run time and advances the simulated time by it.

Statements are trees of what the visitor tells apart.  The values of the expressions that control loops are part of the tree, since the visitor
refuses those that depend on variables of the block (`validateScope.h`).  Not modelled: the bytes that are read and written, operations on
template parameters' types other than being free, `#pragma sst memory`, `loop_count` and `replace`, and functions that call themselves, for which
the visitor does not end.
-/

namespace Verif.Clang.Compute

/-- The types of operators, computeVisitor.cc:248-262. -/
inductive Ty where
  | int | float | pointer | template | object
deriving DecidableEq, Repr

/-- `#pragma sst branch_predict` at an `if`: none, "true", "false" or the probability `a / b`, pragmas.cc:566-572. -/
inductive Hint where
  | none | always | never
  | part (a b : Nat)
deriving DecidableEq, Repr

/-- The operator of the condition of a loop. -/
inductive Rel where
  | lt | le | gt | ge | ne
deriving DecidableEq, Repr

/-- The increment of a loop. -/
inductive Inc where
  | up | down
  | add (s : Int) | sub (s : Int) | mul (s : Int)
deriving DecidableEq, Repr

/-- The control of a loop `for (i = lo; i rel hi; inc)`. -/
structure Ctl where
  lo : Int
  rel : Rel
  hi : Int
  inc : Inc

/-- Statements and expressions. -/
inductive S where
  /-- Literals, names of variables and empty statements. -/
  | skip
  /-- `+ - * /`, `=` and `+= -= *= /= %=`. -/
  | arith (t : Ty) (l r : S)
  /-- Other binary operators. -/
  | bin (l r : S)
  /-- `++` and `--`. -/
  | step (t : Ty) (e : S)
  /-- Other unary operators, parentheses and casts. -/
  | un (e : S)
  /-- `base[idx]`. -/
  | index (base idx : S)
  /-- The declaration of one variable with an initial value. -/
  | decl (e : S)
  /-- A declaration of two or more variables, with their initial values. -/
  | decls (e : S)
  | seq (a b : S)
  | loop (c : Ctl) (body : S)
  | while (body : S)
  /-- An `if` with its condition, the statement for true and the one for false, `skip` if there is none. -/
  | ite (h : Hint) (c t e : S)
  /-- A `switch` with its expression and its cases. -/
  | switch (c cases : S)
  /-- A case: the statement at its label, those after it, and the other cases. -/
  | case (first rest next : S)
  /-- The call of a function whose definition the compiler knows. -/
  | call (args body : S)
  /-- The call of another function. -/
  | extern (args : S)
  /-- Nodes of all other classes, with what is in them: `return`, `do`, loops over ranges, `? :`, members of objects, calls of methods. -/
  | other (e : S)

/-- The number by which the executions of an inner part are multiplied, computeVisitor.cc:595-623, :390-404. -/
inductive Trip where
  | count (n : Int)
  | part (a b : Nat)
  | rest (a b : Nat)

/-- The list `subLoops`, computeLoops.h:51-78: an entry with its count, its operations, its own list, and the entries after it. -/
inductive Loops where
  | nil
  | cons (t : Trip) (flops intops : Nat) (subs rest : Loops)

/-- `Loop::Body`, computeLoops.h:52-69. -/
structure Body where
  flops : Nat
  intops : Nat
  subs : Loops

/-- A body at its beginning, computeLoops.h:63-68. -/
def Body.new : Body := ⟨0, 0, .nil⟩

/-- `subLoops.emplace_back`, computeVisitor.cc:168-173. -/
def Loops.snoc (t : Trip) (x : Body) : Loops → Loops
  | .nil => .cons t x.flops x.intops x.subs .nil
  | .cons t' f i s r => .cons t' f i s (r.snoc t x)

/-- `ComputeVisitor::getTripCount`, computeVisitor.cc:595-623, for what `getStride`, :466-511, and `visitPredicateBinaryOperator`, :545-564, leave:
the operator of the condition is not looked at, and `increment` stays true for assignments. -/
def tripCount (c : Ctl) : Int :=
  match c.inc with
  | .up => c.hi - c.lo
  | .down => c.lo - c.hi
  | .add s => (c.hi - c.lo).tdiv s
  | .sub s => (c.hi - c.lo).tdiv s
  | .mul s => (c.hi - c.lo).tdiv s

/-- One more operation of a type, computeVisitor.cc:248-262; `none` is the abort. -/
def Body.op (b : Body) : Ty → Option Body
  | .int => some { b with intops := b.intops + 1 }
  | .pointer => some { b with intops := b.intops + 1 }
  | .float => some { b with flops := b.flops + 1 }
  | .template => some b
  | .object => none

/-- The same for `++` and `--`, which abort for no type, computeVisitor.cc:213-224. -/
def Body.inc (b : Body) : Ty → Body
  | .int => { b with intops := b.intops + 1 }
  | .pointer => { b with intops := b.intops + 1 }
  | .float => { b with flops := b.flops + 1 }
  | _ => b

/-- `ComputeVisitor::addOperations` with all its `visitBody…`, computeVisitor.cc:152-464; `none` is `errorAbort`.  The entry for an `else` is made
whether there is one or not, since it is of no effect without operations. -/
def add : S → Body → Option Body
  | .skip, b => some b
  | .arith t l r, b => (b.op t).bind fun b => (add l b).bind (add r)
  | .bin l r, b => (add l b).bind (add r)
  | .step t e, b => add e (b.inc t)
  | .un e, b => add e b
  | .index base idx, b => (add idx { b with intops := b.intops + 1 }).bind (add base)
  | .decl e, b => add e b
  | .decls _, b => some b
  | .seq s t, b => (add s b).bind (add t)
  | .loop c body, b => (add body .new).map fun x => { b with subs := b.subs.snoc (.count (tripCount c)) x }
  | .while _, _ => none
  | .ite h _ t e, b =>
    match h with
    | .none => add e b
    | .always => add t b
    | .never => add e b
    | .part p q => (add t .new).bind fun x => (add e .new).map fun y => { b with subs := (b.subs.snoc (.part p q) x).snoc (.rest p q) y }
  | .switch _ cases, b => add cases { b with intops := b.intops + 1 }
  | .case first _ next, b => (add first b).bind (add next)
  | .call _ body, b => add body b
  | .extern _, b => some b
  | .other _, b => some b

/-- The numbers of the code that is written are of the type `uint64_t`. -/
abbrev W := BitVec 64

/-- `tripCount1 = tripCount0 * …`, computeVisitor.cc:629-636.  The text for an `else` is `tripCount0*1-(p)*(1)`.  Products with a probability are
floating point numbers that are cut to integers; their rounding is not modelled. -/
def Trip.times (outer : W) : Trip → W
  | .count n => outer * BitVec.ofInt 64 n
  | .part a b => BitVec.ofNat 64 (outer.toNat * a / b)
  | .rest a b => BitVec.ofNat 64 ((outer.toNat * b - a) / b)

/-- What the code of `addLoopContribution` adds to `flops` and `intops`, computeVisitor.cc:625-660. -/
def Loops.eval (outer : W) : Loops → W × W
  | .nil => (0#64, 0#64)
  | .cons t f i subs rest =>
    let trip := t.times outer
    (trip * BitVec.ofNat 64 f + (subs.eval trip).1 + (rest.eval outer).1, trip * BitVec.ofNat 64 i + (subs.eval trip).2 + (rest.eval outer).2)

/-- `SSTComputePragma::replaceForStmt` and `visitAndReplaceStmt`, computePragma.cc:310-319, :233-242, and the arguments of
`sstmac_compute_detailed`, computeVisitor.cc:667-685, when the code runs. -/
def charge : S → Option (W × W)
  | .loop c body => (add body .new).map fun x => (Loops.cons (.count (tripCount c)) x.flops x.intops x.subs .nil).eval 1#64
  | s => (add s .new).map fun x => (Loops.cons (.count 1) x.flops x.intops x.subs .nil).eval 1#64

end Verif.Clang.Compute
