import Verif.Apps.Prog
set_option autoImplicit false

/-!
# The workloads fft and offered_load

Model of sstmac/skeletons/fft/fft.cc, and of how many messages are sent and awaited in
sstmac/skeletons/offered_load/main.cc.  Numbers are unbounded, where the code has `int`; reading the
options, the clock and printing are not modelled.
-/

namespace Verif.Apps.Fft

/-- The options, fft.cc:66-98, and the number of ranks. -/
structure Opts where
  size : Int
  dx : Int
  dy : Int
  dz : Int
  mx : Int
  my : Int
  mz : Int
  iters : Int

/-- `myXcoord`, fft.cc:106. -/
def posX (o : Opts) (r : Int) : Int := r.tmod o.dx

/-- `myYcoord`, fft.cc:107. -/
def posY (o : Opts) (r : Int) : Int := (r.tmod (o.dx * o.dy)).tdiv o.dx

/-- `myZcoord`, fft.cc:108. -/
def posZ (o : Opts) (r : Int) : Int := (r.tmod (o.dx * o.dy * o.dz)).tdiv (o.dx * o.dy)

/-- Insertion before the first element with a key that is not smaller. -/
def insert (key : Int → Int) (a : Int) : List Int → List Int
  | [] => [a]
  | b :: l => if key a ≤ key b then a :: b :: l else b :: insert key a l

/-- The members of the communicator that `MPI_Comm_split` of the world gives to rank `r`: the ranks of the
same colour, in the order of their keys and then of their ranks (C24). -/
def split (n : Int) (colour key : Int → Int) (r : Int) : List Int :=
  (((List.range n.toNat).map Int.ofNat).filter fun q => colour q = colour r).foldr (insert key) []

/-- The communicators: the world, and `X_comm`, `Y_comm`, `Z_comm`, fft.cc:126-136. -/
def comm (o : Opts) (r : Int) : Fin 4 → List Int
  | 0 => (List.range o.size.toNat).map Int.ofNat
  | 1 => split o.size (fun q => posZ o q * o.dy + posY o q) (posX o) r
  | 2 => split o.size (fun q => posZ o q * o.dx + posX o q) (posY o) r
  | 3 => split o.size (fun q => posY o q * o.dx + posX o q) (posZ o) r

/-- The collectives of the program: communicator, kind (0 barrier, 1 all-to-all, 2 split), count per member,
fft.cc:126-165.  Exchanges without data are skipped, with their communicators. -/
def calls (o : Opts) : List (Fin 4 × Nat × Int) :=
  (if o.mx ≠ 0 then [(0, 2, 0)] else []) ++ (if o.my ≠ 0 then [(0, 2, 0)] else []) ++ (if o.mz ≠ 0 then [(0, 2, 0)] else []) ++
  [(0, 0, 0)] ++
  (List.replicate o.iters.toNat ((if o.mx ≠ 0 then [(1, 1, o.mx)] else []) ++ (if o.my ≠ 0 then [(2, 1, o.my)] else []) ++
    (if o.mz ≠ 0 then [(3, 1, o.mz)] else []))).flatten ++
  [(0, 0, 0)]

/-- The program of a rank. -/
def program (o : Opts) (r : Int) : List Instr := (calls o).map fun c => .coll (comm o r c.1) c.2.1 c.2.2

/-- The program; `none` is the abort of fft.cc:100-103. -/
def app (o : Opts) : Option World :=
  if o.dx * o.dy * o.dz ≠ o.size then none
  else some ⟨o.size, fun r => if 0 ≤ r ∧ r < o.size then program o r else []⟩

/-- What rank `r` of `offered_load` waits for, offered_load/main.cc:125-131 and :170-179. -/
def awaited (dests : List Nat) (iters r : Nat) : Nat := dests.countP (· == r) * iters

/-- What the ranks below `n` send to rank `r`, offered_load/main.cc:168 and :207-213: each sends to its place in the list. -/
def sentTo (dests : List Nat) (n iters r : Nat) : Nat := (List.range n).countP (fun q => dests[q]? == some r) * iters

end Verif.Apps.Fft
