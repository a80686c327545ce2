/-!
Model of the reduction operators of MPI: the element functions of sumi/comm_functions.h:55-182,
the tables of operators of the predefined datatypes (sumi-mpi/mpi_types/mpi_type.h:159-199,
sumi-mpi/mpi_types/mpi_type.cc:135-181, sumi-mpi/mpi_api_type.cc:60-251), operators made by the
program (sumi-mpi/mpi_api_type.cc:297-314) and the choice of the function for a collective
(sumi-mpi/mpi_api_collectives.cc:722-746).

C++ integers are modelled with their promotions: an arithmetic operation on a type narrower than
`int` is done in `int`, and signed overflow is undefined behaviour (no result).  Conversion of a
result to a narrower type keeps the low bits (what gcc and clang define).  The data model is LP64,
plain `char` is signed.  Floating point numbers are not modelled except for their order, with NaN.
-/
set_option autoImplicit false
namespace SST.Mpi.Ops

/-! ### Integers of C++ -/

/-- The integer types that `commitBuiltinTypes` uses, mpi_api_type.cc:166-227. -/
inductive CT
  | int (signed : Bool) (w : Nat)
  | bool
deriving DecidableEq, Repr

/-- Smallest value. -/
def CT.lo : CT → Int
  | .int true w => -2 ^ (w - 1)
  | .int false _ => 0
  | .bool => 0

/-- Largest value. -/
def CT.hi : CT → Int
  | .int true w => 2 ^ (w - 1) - 1
  | .int false w => 2 ^ w - 1
  | .bool => 1

/-- Conversion of an integer to the type: modulo `2 ^ w`, to `bool` the test for zero. -/
def conv : CT → Int → Int
  | .int true w, r => if r % 2 ^ w < 2 ^ (w - 1) then r % 2 ^ w else r % 2 ^ w - 2 ^ w
  | .int false w, r => r % 2 ^ w
  | .bool, r => if r = 0 then 0 else 1

/-- Integer promotion: what a value of the type is computed in (signedness and width). -/
def prom : CT → Bool × Nat
  | .int s w => if w < 32 then (true, 32) else (s, w)
  | .bool => (true, 32)

/-- An arithmetic result `r` assigned to a variable of type `t` (`dst += src`, `dst *= src`):
signed overflow has no result, unsigned arithmetic is modulo `2 ^ w`. -/
def arith (t : CT) (r : Int) : Option Int :=
  if (prom t).1 then
    if -2 ^ ((prom t).2 - 1) ≤ r ∧ r < 2 ^ ((prom t).2 - 1) then some (conv t r) else none
  else some (conv t r)

/-- The bits of a promoted value, as a natural number. -/
def bits (t : CT) (x : Int) : Nat := (x % 2 ^ (prom t).2).toNat

/-- A truth value as an integer. -/
def ofBool (b : Bool) : Int := if b then 1 else 0

/-! ### Element functions, comm_functions.h -/

/-- The templates, comm_functions.h:55-169, mpi_api_type.cc:91-119. -/
inductive Tmpl
  | add | prod | min | max | lxor | bxor | band | bor | or | and
deriving DecidableEq, Repr

/-- `Fxn<data_t>::op(dst, src)` for an integer type: the new `dst`. -/
def apply (t : CT) : Tmpl → Int → Int → Option Int
  | .add, a, b => arith t (a + b)                                    -- :55-62
  | .prod, a, b =>                                                   -- :64-81
    if t = .bool then some (ofBool (a != 0 && b != 0)) else arith t (a * b)
  | .min, a, b => some (if a < b then a else b)                      -- :84-92
  | .lxor, a, b => some (conv t (ofBool ((a != 0) ^^ (b != 0))))     -- :94-102
  | .bxor, a, b => some (conv t (bits t a ^^^ bits t b : Nat))       -- :104-112
  | .band, a, b => some (conv t (bits t a &&& bits t b : Nat))       -- :114-122
  | .bor, a, b => some (conv t (bits t a ||| bits t b : Nat))        -- :124-132
  | .or, a, b => some (conv t (ofBool (a != 0 || b != 0)))           -- :134-142
  | .max, a, b => some (if a < b then b else a)                      -- :144-152
  | .and, a, b => some (conv t (ofBool (a != 0 && b != 0)))          -- :161-169

/-- `MaxLocPair::op(dst, src)`, mpi_api_type.cc:91-104; a pair is (value, index). -/
def maxLoc (a b : Int × Int) : Option (Int × Int) :=
  some (if b.1 > a.1 then b else if b.1 = a.1 then (a.1, if a.2 < b.2 then a.2 else b.2) else a)

/-- `MinLocPair::op(dst, src)`, mpi_api_type.cc:106-119. -/
def minLoc (a b : Int × Int) : Option (Int × Int) :=
  some (if b.1 < a.1 then b else if b.1 = a.1 then (a.1, if a.2 < b.2 then a.2 else b.2) else a)

/-- `dst < src` of floating point numbers; `none` is NaN. -/
def flt : Option Int → Option Int → Bool
  | some a, some b => a < b
  | _, _ => false

/-- `Max<double>::op(dst, src)`, comm_functions.h:144-152. -/
def fmax (a b : Option Int) : Option Int := if flt a b then b else a

/-- `ReduceOp::op`, comm_functions.h:171-182: the loop over `nelems` elements.  No result when an
element function has none or a buffer is too short. -/
def reduceOp {α : Type} (f : α → α → Option α) : Nat → List α → List α → Option (List α)
  | 0, dst, _ => some dst
  | n + 1, a :: dst, b :: src =>
    match f a b, reduceOp f n dst src with
    | some c, some r => some (c :: r)
    | _, _ => none
  | _ + 1, _, _ => none

/-! ### Datatypes and their operators -/

/-- `MPI_Op`, mpi_integers.h:84-99. -/
inductive Op
  | max | min | sum | prod | land | band | lor | bor | lxor | bxor | maxloc | minloc | replace | dumpi
deriving DecidableEq, Repr

/-- A function stored for an operator: a template at a type. -/
inductive Fxn
  | int (t : CT) (f : Tmpl)
  | flt (f : Tmpl)
  | maxLoc
  | minLoc
deriving DecidableEq, Repr

/-- The parts of `MpiType` used here: `size_` and `fxns_`, the last assignment first. -/
structure TyObj where
  size : Nat
  fxns : List (Op × Fxn)
deriving DecidableEq, Repr

/-- `init_ops`, mpi_type.h:182-191; `mk` makes the function from the template. -/
def initOps (mk : Tmpl → Fxn) : List (Op × Fxn) :=
  [(.lxor, mk .lxor), (.prod, mk .prod), (.lor, mk .or), (.land, mk .and), (.min, mk .min), (.max, mk .max), (.sum, mk .add)]

/-- `init_bitwise_ops`, mpi_type.h:193-199. -/
def initBitwise (mk : Tmpl → Fxn) : List (Op × Fxn) :=
  [(.bxor, mk .bxor), (.bor, mk .bor), (.bor, mk .bor), (.band, mk .band)]

/-- `init_integer<data_t>`, mpi_type.h:161-166. -/
def initInteger (size : Nat) (t : CT) : TyObj := ⟨size, initBitwise (.int t) ++ initOps (.int t)⟩

/-- `init_with_ops<data_t>` for a floating point type, mpi_type.h:168-172. -/
def initWithOps (size : Nat) : TyObj := ⟨size, initOps .flt⟩

/-- `initNoOps`, mpi_type.h:178-180. -/
def initNoOps (size : Nat) : TyObj := ⟨size, []⟩

/-- `index_precommit_type`, mpi_api_type.cc:155-159; `size` is the size of the structure. -/
def initIndex (size : Nat) : TyObj := ⟨size, [(.minloc, .minLoc), (.maxloc, .maxLoc)]⟩

/-- `MpiType::op`, mpi_type.cc:172-181; `none`: the call throws. -/
def TyObj.op (o : TyObj) (k : Op) : Option Fxn := o.fxns.lookup k

/-- The predefined datatypes a program can name, mpi_integers.h:102-157. -/
inductive Builtin
  | null | char | byte | short | int | long | float | double | unsignedChar | unsignedShort | unsigned
  | unsignedLong | longDouble | longLongInt | packed | ub | lb | doubleInt | twoInt | longInt | floatInt
  | shortInt | longDoubleInt | signedChar | wchar | unsignedLongLong | complex | doubleComplex | logical
  | real | doublePrecision | integer | twoInteger | twoReal | twoDoublePrecision | character | int8 | int16
  | int32 | int64 | uint8 | uint16 | uint32 | uint64 | real4 | real8 | real16 | complex8 | complex16
  | integer1 | integer2 | integer4 | integer8 | cxxBool
deriving DecidableEq, Repr

/-- `commitBuiltinTypes`, mpi_api_type.cc:166-234: the object each name stands for; `none` when it is
not in the table, so that every call with it throws (`typeFromId`, mpi_api_type.cc:644-654). -/
def table : Builtin → Option TyObj
  | .null => some (initNoOps 0)
  | .char => some (initInteger 1 (.int true 8))
  | .unsignedChar => some (initInteger 1 (.int false 8))
  | .signedChar => some (initInteger 1 (.int true 8))
  | .wchar => some (initInteger 2 (.int false 16))
  | .unsignedLongLong => some (initInteger 8 (.int false 64))
  | .lb => some (initNoOps 0)
  | .ub => some (initNoOps 0)
  | .byte => some (initInteger 1 (.int true 8))
  | .int => some (initInteger 4 (.int true 32))
  | .unsigned => some (initInteger 4 (.int false 32))
  | .short => some (initInteger 2 (.int true 16))
  | .unsignedShort => some (initInteger 2 (.int false 16))
  | .long => some (initInteger 8 (.int true 64))
  | .longLongInt => some (initInteger 8 (.int true 64))
  | .unsignedLong => some (initInteger 8 (.int false 64))
  | .packed => some (initInteger 1 (.int true 8))
  | .complex => some (initNoOps 8)
  | .doubleComplex => some (initNoOps 16)
  | .float => some (initWithOps 4)
  | .real => some (initWithOps 4)
  | .doublePrecision => some (initWithOps 8)
  | .double => some (initWithOps 8)
  | .real4 => some (initWithOps 4)
  | .real8 => some (initWithOps 8)
  | .longDouble => some (initWithOps 16)
  | .cxxBool => some (initInteger 1 .bool)
  | .integer => some (initInteger 4 (.int true 32))
  | .integer1 => some (initInteger 1 (.int true 8))
  | .integer2 => some (initInteger 2 (.int true 16))
  | .integer4 => some (initInteger 4 (.int true 32))
  | .integer8 => some (initInteger 8 (.int true 64))
  | .int8 => some (initInteger 1 (.int true 8))
  | .int16 => some (initInteger 2 (.int true 16))
  | .int32 => some (initInteger 4 (.int true 32))
  | .int64 => some (initInteger 8 (.int true 64))
  | .uint8 => some (initInteger 1 (.int false 8))
  | .uint16 => some (initInteger 2 (.int false 16))
  | .uint32 => some (initInteger 4 (.int false 32))
  | .uint64 => some (initInteger 8 (.int false 64))
  | .character => some (initInteger 1 (.int true 8))
  | .twoInt => some (initIndex 8)
  | .doubleInt => some (initIndex 16)
  | .floatInt => some (initIndex 8)
  | .longInt => some (initIndex 16)
  | .shortInt => some (initIndex 8)
  | .longDoubleInt => some (initIndex 32)
  | .logical | .twoInteger | .twoReal | .twoDoublePrecision | .real16 | .complex8 | .complex16 => none

/-! ### Operators of the program -/

/-- `MPI_User_function`: from the buffers `invec`, `inoutvec` and the length, the new `inoutvec`. -/
abbrev UserFn := List Int → List Int → Nat → List Int

/-- The parts of `MpiApi` used: `next_op_id_` (mpi_api.h:824-825, from `first_custom_op_id` = 1000) and
`custom_ops_`. -/
structure Api where
  nextOp : Nat
  custom : List (Nat × UserFn)

/-- mpi_api.cc:124. -/
def Api.init : Api := ⟨1000, []⟩

/-- `MpiApi::opCreate`, mpi_api_type.cc:297-307; `none`: the call throws. -/
def opCreate (s : Api) (f : UserFn) (commute : Bool) : Option (Nat × Api) :=
  if commute then some (s.nextOp, ⟨s.nextOp + 1, (s.nextOp, f) :: s.custom.filter (fun e => e.1 != s.nextOp)⟩)
  else none

/-- `MpiApi::opFree`, mpi_api_type.cc:309-314. -/
def opFree (s : Api) (k : Nat) : Api := { s with custom := s.custom.filter (fun e => e.1 != k) }

/-- What an `MPI_Op` handle says: a predefined operator, or the number of one made by the program
(≥ 1000). -/
inductive Handle
  | pre (k : Op)
  | user (id : Nat)
deriving DecidableEq, Repr

/-- Why a reduction has no result: the datatype is not known, it has no such operator, the operator is
not known, undefined behaviour, or floating point arithmetic (not modelled). -/
inductive Err
  | noType | noOp | badOp | undef | float
deriving DecidableEq, Repr

/-- `dst := op(dst, src)` on buffers of integers, or an error. -/
abbrev Combine := List Int → List Int → Except Err (List Int)

/-- The function stored in a table. -/
def Fxn.run (n : Nat) : Fxn → Combine
  | .int t f, dst, src =>
    match reduceOp (apply t f) n dst src with
    | some r => .ok r
    | none => .error .undef
  | _, _, _ => .error .float

/-- `MpiApi::getCollectiveFunction`, mpi_api_collectives.cc:722-746: the user function gets the
incoming data first and its own second; without payload the function is `Add<int>`. -/
def getFxn (s : Api) (b : Builtin) (h : Handle) (n : Nat) (payload : Bool) : Except Err Combine :=
  match table b with
  | none => .error .noType
  | some o =>
    match h with
    | .user k =>
      match s.custom.lookup k with
      | none => .error .badOp
      | some f => .ok (fun dst src => .ok (f src dst n))
    | .pre k =>
      if payload then
        match o.op k with
        | none => .error .noOp
        | some f => .ok (f.run n)
      else .ok (Fxn.run n (.int (.int true 32) .add))

/-! ### Reductions -/

/-- In which order and grouping contributions are combined: the left part is in the destination
buffer, the right part comes in.  All algorithms of the collectives do such combinations (`red` in
Verif.Coll.Reduction is the one from left to right). -/
inductive Tree
  | leaf (rank : Nat)
  | node (l r : Tree)
deriving DecidableEq, Repr

/-- The ranks that take part. -/
def Tree.ranks : Tree → List Nat
  | .leaf r => [r]
  | .node l r => l.ranks ++ r.ranks

/-- The result of combining the contributions `d`. -/
def Tree.eval (f : Combine) (d : Nat → List Int) : Tree → Except Err (List Int)
  | .leaf r => .ok (d r)
  | .node l r =>
    match l.eval f d, r.eval f d with
    | .ok a, .ok b => f a b
    | .error e, _ => .error e
    | _, .error e => .error e

/-- A reduction of `n` elements of a predefined datatype. -/
def reduce (s : Api) (b : Builtin) (h : Handle) (n : Nat) (d : Nat → List Int) (T : Tree) : Except Err (List Int) :=
  match getFxn s b h n true with
  | .ok f => T.eval f d
  | .error e => .error e

/-- A reduction of `n` (value, index) pairs with `MPI_MAXLOC` (`true`) or `MPI_MINLOC`. -/
def Tree.locEval (mx : Bool) (n : Nat) (d : Nat → List (Int × Int)) : Tree → Option (List (Int × Int))
  | .leaf r => some (d r)
  | .node l r =>
    match l.locEval mx n d, r.locEval mx n d with
    | some a, some b => reduceOp (if mx then maxLoc else minLoc) n a b
    | _, _ => none

/-- The same at a predefined datatype. -/
def reduceLoc (b : Builtin) (k : Op) (n : Nat) (d : Nat → List (Int × Int)) (T : Tree) : Option (List (Int × Int)) :=
  match (table b).bind (·.op k) with
  | some .maxLoc => T.locEval true n d
  | some .minLoc => T.locEval false n d
  | _ => none

end SST.Mpi.Ops
