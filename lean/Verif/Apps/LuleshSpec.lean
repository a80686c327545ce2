import Verif.Apps.Lulesh
set_option autoImplicit false
/-
What the exchanges of LULESH have to be, from the positions of the ranks in the cube alone.
-/
namespace Verif.Apps.Lulesh

/-- At most one step apart along an axis. -/
def near (d : Int) : Prop := d = -1 ∨ d = 0 ∨ d = 1

/-- Before the other in the order of planes, then rows, then columns. -/
def before (a b c : Int) : Prop := a < 0 ∨ (a = 0 ∧ (b < 0 ∨ (b = 0 ∧ c < 0)))

/-- Apart along one axis only. -/
def oneAxis (a b c : Int) : Prop := (b = 0 ∧ c = 0) ∨ (a = 0 ∧ c = 0) ∨ (a = 0 ∧ b = 0)

instance (d : Int) : Decidable (near d) := by unfold near; infer_instance
instance (a b c : Int) : Decidable (before a b c) := by unfold before; infer_instance
instance (a b c : Int) : Decidable (oneAxis a b c) := by unfold oneAxis; infer_instance

/-- A rank at `p` owes a rank at `q` a message: they touch; all directions are wanted or the
receiver comes first; faces only are wanted or they share a face. -/
def owes (x : Exchange) (p q : Pos) : Prop :=
  let a := q.plane - p.plane
  let b := q.row - p.row
  let c := q.col - p.col
  near a ∧ near b ∧ near c ∧ ¬ (a = 0 ∧ b = 0 ∧ c = 0) ∧ (x.flag = true ∨ before a b c) ∧
    (x.planeOnly = true → oneAxis a b c)

instance (x : Exchange) (p q : Pos) : Decidable (owes x p q) := by unfold owes; infer_instance

/-- The number of points that two touching ranks share, times the number of fields. -/
def shared (x : Exchange) (p q : Pos) : Nat :=
  (if q.col = p.col then x.dx else 1) * (if q.row = p.row then x.dy else 1) *
    (if q.plane = p.plane then x.dz else 1) * x.fields

/-- The messages from `p` to `q` in an exchange. -/
def wanted (x : Exchange) (p q : Pos) : List Int := if owes x p q then [(shared x p q : Int)] else []

/-- The position is in the cube and gives the rank. -/
def Located (tp r : Int) (p : Pos) : Prop :=
  0 ≤ p.col ∧ p.col < tp ∧ 0 ≤ p.row ∧ p.row < tp ∧ 0 ≤ p.plane ∧ p.plane < tp ∧
    r = (p.plane * tp + p.row) * tp + p.col

/-- The exchanges of a run of `its` steps with `nx` elements along an edge: the masses of the nodes
at the start, then in each step three forces of the nodes, positions and velocities of the nodes
towards the lower ranks only, and three gradients of the elements through faces if there are
elements. -/
def exchanges (nx its : Nat) : List Exchange :=
  ⟨1024, 1, nx + 1, nx + 1, nx + 1, true, false⟩ ::
    (List.replicate its ([⟨1024, 3, nx + 1, nx + 1, nx + 1, true, false⟩, ⟨2048, 6, nx + 1, nx + 1, nx + 1, false, false⟩] ++
      (if nx = 0 then [] else [⟨3072, 3, nx, nx, nx, true, true⟩]))).flatten

/-- The collectives of a run: a barrier, a reduction in all steps but the first, and the last
reduction. -/
def collectives (its : Nat) : List (Nat × Int) := (0, 0) :: (List.replicate (its - 1) (1, 1) ++ [(2, 1)])

end Verif.Apps.Lulesh
