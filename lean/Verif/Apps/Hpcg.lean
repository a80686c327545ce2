set_option autoImplicit false
/-
The grid of processes of the HPCG skeleton (skeletons/hpcg-3.0/src/ComputeOptimalShapeXYZ.cpp,
MixedBaseCounter.cpp and GenerateGeometry.cpp).  Numbers are unbounded: the overflow of the last
squaring in `pow_i` for a prime above 46340 is not modelled (its result is not used).
-/
namespace Verif.Apps.Hpcg

/-- `std::map<int,int>`: factors in ascending order with their counts, ComputeOptimalShapeXYZ.cpp:56. -/
abbrev FMap := List (Nat × Nat)

/-- `factors[k]++`, ComputeOptimalShapeXYZ.cpp:17, :25 and :33. -/
def inc (k : Nat) : FMap → FMap
  | [] => [(k, 1)]
  | (a, c) :: l => if k = a then (a, c + 1) :: l else if k < a then (k, 1) :: (a, c) :: l else (a, c) :: inc k l

/-- The loop on the factor 2, ComputeOptimalShapeXYZ.cpp:15-18; the first argument bounds the number of
iterations, `n` is enough. -/
def twos : Nat → Nat → FMap → Nat × FMap
  | 0, n, m => (n, m)
  | f + 1, n, m => if 1 < n ∧ n % 2 = 0 then twos f (n / 2) (inc 2 m) else (n, m)

/-- The loop on one odd factor, ComputeOptimalShapeXYZ.cpp:22-30. -/
def removeAll (d : Nat) : Nat → Nat → FMap → Nat × FMap
  | 0, n, m => (n, m)
  | f + 1, n, m => if n % d = 0 then removeAll d f (n / d) (inc d m) else (n, m)

/-- The loop over odd factors from `d`, ComputeOptimalShapeXYZ.cpp:21-31. -/
def odds (sq : Nat) : Nat → Nat → Nat → FMap → Nat × FMap
  | 0, _, n, m => (n, m)
  | f + 1, d, n, m => if d ≤ sq then odds sq f (d + 2) (removeAll d n n m).1 (removeAll d n n m).2 else (n, m)

/-- `ComputePrimeFactors`, ComputeOptimalShapeXYZ.cpp:10-34; `sq` is the rounded square root plus one. -/
def primeFactors (sq n : Nat) : FMap :=
  let t := twos n n []
  let o := odds sq sq 3 t.1 t.2
  if 1 < o.1 ∨ o.2.length = 0 then inc o.1 o.2 else o.2

/-- `MixedBaseCounter::next`, MixedBaseCounter.cpp:28-38; the second list is `max_counts`. -/
def next : List Nat → List Nat → List Nat
  | c :: cs, m :: ms => if c + 1 > m then 0 :: next cs ms else (c + 1) :: cs
  | cs, _ => cs

/-- `MixedBaseCounter::is_zero`, MixedBaseCounter.cpp:40-46. -/
def isZero (c : List Nat) : Bool := c.all (· == 0)

/-- The product of powers of factors, the loops of MixedBaseCounter.cpp:52-56. -/
def powers : List Nat → List Nat → Nat
  | k :: ks, c :: cs => k ^ c * powers ks cs
  | _, _ => 1

/-- `MixedBaseCounter::product`, MixedBaseCounter.cpp:48-59: zero if no factor is taken. -/
def product (ks c : List Nat) : Nat := if isZero c then 0 else powers ks c

/-- The counter of the remaining factors, MixedBaseCounter.cpp:20-26. -/
def rest (m c : List Nat) : List Nat := List.zipWith (· - ·) m c

/-- The number of values of a counter, the bound on the iterations of the loop of
ComputeOptimalShapeXYZ.cpp:97. -/
def total (m : List Nat) : Nat := m.foldr (fun a t => (a + 1) * t) 1

/-- `for (c.next(); !c.is_zero(); c.next())`, ComputeOptimalShapeXYZ.cpp:97 and :99, from a value on; the
first number bounds the number of iterations. -/
def visit (m : List Nat) : Nat → List Nat → List (List Nat)
  | 0, _ => []
  | f + 1, c => if isZero c then [] else c :: visit m f (next c m)

/-- All values that the loop of ComputeOptimalShapeXYZ.cpp:97 visits. -/
def visited (m : List Nat) : List (List Nat) := visit m (total m) (next (List.replicate m.length 0) m)

/-- Three extents, ComputeOptimalShapeXYZ.cpp:55. -/
structure Shape where
  x : Nat
  y : Nat
  z : Nat
deriving DecidableEq, Repr

/-- `area`, ComputeOptimalShapeXYZ.cpp:104. -/
def Shape.area (s : Shape) : Nat := s.x * s.y + s.y * s.z + s.x * s.z

/-- One iteration, ComputeOptimalShapeXYZ.cpp:100-110. -/
def try1 (st : Nat × Shape) (s : Shape) : Nat × Shape := if s.area < st.1 then (s.area, s) else st

/-- The shapes that the two loops try, ComputeOptimalShapeXYZ.cpp:97-102. -/
def tried (n : Nat) (m : FMap) : List Shape :=
  (visited (m.map (·.2))).flatMap fun c1 => (visited (rest (m.map (·.2)) c1)).map fun c2 =>
    ⟨product (m.map (·.1)) c1, product (m.map (·.1)) c2, n / product (m.map (·.1)) c1 / product (m.map (·.1)) c2⟩

/-- `pow_i`, ComputeOptimalShapeXYZ.cpp:36-52, for exponents that are not negative, by repeated squaring. -/
def powLoop : Nat → Nat → Nat → Nat → Nat
  | 0, v, _, _ => v
  | f + 1, v, x, p => if p = 0 then v else powLoop f (if p % 2 = 1 then v * x else v) (x * x) (p / 2)

/-- `pow_i`, ComputeOptimalShapeXYZ.cpp:36-52. -/
def powI (x p : Nat) : Nat := if x = 0 ∨ x = 1 then x else powLoop (p + 1) 1 x p

/-- The search over all shapes, ComputeOptimalShapeXYZ.cpp:81-113. -/
def search (n : Nat) (m : FMap) (init : Shape) : Shape := ((tried n m).foldl try1 (2 * n + 1, init)).2

/-- `ComputeOptimalShapeXYZ`, ComputeOptimalShapeXYZ.cpp:54-114; `z0` is what `z` holds before. -/
def shape (sq n z0 : Nat) : Shape :=
  let m := primeFactors sq n
  match m with
  | [] => ⟨0, 0, 0⟩
  | [(x, c)] => ⟨powI x (c / 3 + (if c % 3 ≥ 1 then 1 else 0)), powI x (c / 3 + (if c % 3 ≥ 2 then 1 else 0)), powI x (c / 3)⟩
  | [(x, a), (y, b)] =>
    if a = 1 ∧ b = 1 then ⟨x, y, 1⟩
    else if a + b = 3 then ⟨x, y, if a = 2 then x else y⟩
    else search n m ⟨x, y, z0⟩
  | (x, a) :: (y, b) :: (w, c) :: l =>
    if l = [] ∧ a = 1 ∧ b = 1 ∧ c = 1 then ⟨x, y, w⟩ else search n m ⟨x, y, z0⟩

/-- `ipx`, `ipy`, `ipz` of a rank, GenerateGeometry.cpp:55-57. -/
def place (s : Shape) (r : Nat) : Shape :=
  let ipz := r / (s.x * s.y)
  ⟨r % s.x, (r - ipz * s.x * s.y) / s.x, ipz⟩

end Verif.Apps.Hpcg
