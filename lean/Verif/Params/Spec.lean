import Verif.Params.Model
/-!
# What a parameter file means

A specification of parameter files in terms of the values a user sees: a configuration
gives, for a list of namespaces and a key, the value stored there.  It does not mention
scopes, maps or the stack of the reader.
-/
set_option autoImplicit false

namespace Params

/-- `key` is the names `ns` and the name `k`, none of which contains a dot, with dots
in between. -/
inductive Dotted : Str → List Str → Str → Prop
  | last {k : Str} : '.' ∉ k → Dotted k [] k
  | cons {n rest : Str} {ns : List Str} {k : Str} : '.' ∉ n → Dotted rest ns k →
      Dotted (n ++ '.' :: rest) (n :: ns) k

/-- What the reader has understood so far: the namespaces that are open, the values,
the variables. -/
structure Conf where
  path : List Str
  val : List Str → Str → Option Str
  var : Str → Option Str

/-- `v` stands for `w`: a text that does not begin with a dollar sign stands for itself,
and `$n` stands for what the value of the variable `n` stands for. -/
inductive Means (var : Str → Option Str) : Str → Str → Prop
  | plain {v : Str} : v.head? ≠ some '$' → Means var v v
  | var {n u w : Str} : var n = some u → Means var u w → Means var ('$' :: n) w

/-- The values with the one at `q`, `key` replaced. -/
def setVal (val : List Str → Str → Option Str) (q : List Str) (key : Str) (x : Option Str) :
    List Str → Str → Option Str :=
  fun p k => if p = q ∧ k = key then x else val p k

/-- The variables with one replaced. -/
def setVarTo (var : Str → Option Str) (n v : Str) : Str → Option Str :=
  fun m => if m = n then some v else var m

/-- What one line does.  An assignment to something that has a value fails if the mode
says so, and otherwise replaces it or leaves it. -/
inductive Does (m : Mode) : Dir → Conf → Conf → Prop
  | nothing {c : Conf} : Does m .nothing c c
  | close {c : Conf} {path : List Str} {n : Str} : c.path = path ++ [n] →
      Does m .close c ⟨path, c.val, c.var⟩
  | opn {c : Conf} {n : Str} : Does m (.opn n) c ⟨c.path ++ [n], c.val, c.var⟩
  | var {c : Conf} {n v : Str} : Does m (.var n v) c ⟨c.path, c.val, setVarTo c.var n v⟩
  | assign {c : Conf} {key val w : Str} {ns : List Str} {k : Str} :
      Dotted key ns k → Means c.var val w →
      (c.val (c.path ++ ns) k = none ∨ (m.fail = false ∧ m.over = true)) →
      Does m (.assign key val) c ⟨c.path, setVal c.val (c.path ++ ns) k (some w), c.var⟩
  | leave {c : Conf} {key val w : Str} {ns : List Str} {k : Str} :
      Dotted key ns k → Means c.var val w →
      (c.val (c.path ++ ns) k ≠ none ∧ m.fail = false ∧ m.over = false) →
      Does m (.assign key val) c c
  | unset {c : Conf} {key : Str} {ns : List Str} {k : Str} : Dotted key ns k →
      Does m (.unset key) c ⟨c.path, setVal c.val (c.path ++ ns) k none, c.var⟩

/-- What a list of lines does. -/
inductive DoesAll (m : Mode) : List Dir → Conf → Conf → Prop
  | nil {c : Conf} : DoesAll m [] c c
  | cons {d : Dir} {ds : List Dir} {c c' c'' : Conf} :
      Does m d c c' → DoesAll m ds c' c'' → DoesAll m (d :: ds) c c''

/-- The configuration of a scope, before anything is read into it. -/
def Tree.conf (t : Tree) : Conf := ⟨[], fun p k => t.lookup p k, fun _ => none⟩

/-- The directives of a text. -/
def directives (text : Str) : List Dir := (textLines text).map fun l => classify (trim l)

end Params
