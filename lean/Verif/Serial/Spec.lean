import Verif.Serial.Model
/-
Which values of the supported types can be transferred.  Everything a program normally
sends qualifies; excluded are lengths that do not fit the `int`s of the code, buffer
pointers that are null although their size is not zero, and containers or pointers of the
receiver that already hold something (the receiver does not clear them).
-/
namespace SST.Serial

/-! ### which values can be transferred -/

/-- lists of equal length related element by element -/
inductive Pointwise {α β : Type} (R : α → β → Prop) : List α → List β → Prop
  | nil : Pointwise R [] []
  | cons {a : α} {b : β} {as : List α} {bs : List β} :
      R a b → Pointwise R as bs → Pointwise R (a :: as) (b :: bs)

/-- `v` can be sent and received into a variable that holds `old`. -/
def Fits (c : Cmp) : (t : Ty) → t.den → t.den → Prop
  | .prim n, _, (v : List Byte) => v.length = n
  | .bool, _, _ => True
  | .str, _, (v : List Byte) => v.length < 2 ^ 31
  | .arr w n, _, (v : List Byte) => v.length = w * n
  | .bin _ iw w, _, (v : Nat × Option (List Byte)) =>
    match v with
    | (sz, some data) => 0 < sz ∧ sz < 256 ^ iw ∧ 0 < w ∧ sz * w < 2 ^ 31 ∧ data.length = sz * w
    | (sz, none) => sz = 0
  | .unit, _, _ => True
  | .pair s t, (o : s.den × t.den), (v : s.den × t.den) => Fits c s o.1 v.1 ∧ Fits c t o.2 v.2
  | .vec t, (o : List t.den), (v : List t.den) => v.length ≤ 2 ^ 31 ∧
      Pointwise (Fits c t) (o.take v.length ++ List.replicate (v.length - o.length) (t.fresh true)) v
  | .list t, (o : List t.den), (v : List t.den) =>
      o = [] ∧ v.length ≤ 2 ^ 31 ∧ ∀ x ∈ v, Fits c t (t.fresh false) x
  | .set t, (o : List t.den), (v : List t.den) =>
      o = [] ∧ v.length ≤ 2 ^ 31 ∧ (∀ x ∈ v, Fits c t (t.fresh false) x) ∧
      v.Pairwise (fun a b => c.lt t a b = true)
  | .map k t, (o : List (k.den × t.den)), (v : List (k.den × t.den)) => o = [] ∧ v.length ≤ 2 ^ 31 ∧
      (∀ x ∈ v, Fits c k (k.fresh false) x.1 ∧ Fits c t (t.fresh false) x.2) ∧
      v.Pairwise (fun a b => c.lt k a.1 b.1 = true)
  | .ptr known init cls, (o : Ptr (fun i => (cls i).den)), (v : Ptr (fun i => (cls i).den)) =>
    match v with
    | .null => o = .null
    | .wild => False
    | .obj i a => known i = true ∧ i < 2 ^ 32 ∧ Fits c (cls i) ((cls i).fresh (init i)) a

end SST.Serial
