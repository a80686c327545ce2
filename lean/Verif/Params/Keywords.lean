set_option autoImplicit false
/-
Keywords and search paths of parameter files (sprockit/sprockit/keyword_registration.cc and fileio.cc).
Strings are lists of characters.
-/
namespace Verif.Params.Keywords

/-- `std::string`, keyword_registration.h:88. -/
abbrev Str := List Char

/-- `valid_keywords_`, keyword_registration.h:73: at most one flag per name. -/
abbrev Table := List (Str × Bool)

/-- `valid_keywords_->find`, keyword_registration.cc:86. -/
def find (t : Table) (n : Str) : Option Bool :=
  match t with
  | [] => none
  | (k, b) :: t => if k = n then some b else find t n

/-- `registerKeyword`, keyword_registration.cc:124-129: `insert` keeps an entry that exists. -/
def register (t : Table) (e : Str × Bool) : Table := if (find t e.1).isSome then t else t ++ [e]

/-- `StaticKeywordRegister`, keyword_registration.cc:198-204, for all registrations of a program in the order
of its static constructors. -/
def registerAll (l : List (Str × Bool)) : Table := l.foldl register []

/-- `is_digit`, keyword_registration.h:83-85. -/
def isDigit (c : Char) : Bool := 48 ≤ c.toNat && c.toNat ≤ 57

/-- The name before its first digit, empty if there is none, keyword_registration.cc:95-102. -/
def before (n : Str) : Str := if n.any isDigit then n.takeWhile (fun c => !isDigit c) else []

/-- The answers of `isValidKeyword`, keyword_registration.cc:89-91 and :104-114. -/
inductive Answer | yes | no | abort
deriving DecidableEq, Repr

/-- `isValidKeyword`, keyword_registration.cc:81-115. -/
def isValid (t : Table) (n : Str) : Answer :=
  match find t n with
  | some true => .abort
  | some false => .yes
  | none =>
    match find t (before n) with
    | some true => .yes
    | _ => .no

/-- `removed_keywords`, keyword_registration.cc:63-65. -/
def removed : List Str := ["launch_name".toList]

/-- The outcomes of `validateKeyword`, keyword_registration.cc:170-181. -/
inductive Outcome | accepted | ignored | abort
deriving DecidableEq, Repr

/-- `validateKeyword`, keyword_registration.cc:164-183, with validation on or off. -/
def validate (on : Bool) (t : Table) (n : Str) : Outcome :=
  if on then
    match isValid t n with
    | .yes => .accepted
    | .abort => .abort
    | .no => if n ∈ removed then .ignored else .abort
  else .accepted

/-- `addPath`, fileio.cc:54-58. -/
def addPath (paths : List Str) (p : Str) : List Str := p :: paths

/-- The loop of `openFile`, fileio.cc:69-75; the result is the name of the file opened. -/
def openIn (opens : Str → Bool) (name : Str) : List Str → Option Str
  | [] => none
  | p :: ps => if opens (p ++ '/' :: name) then some (p ++ '/' :: name) else openIn opens name ps

/-- `openFile`, fileio.cc:60-76; `opens` tells which names can be opened. -/
def openFile (opens : Str → Bool) (paths : List Str) (name : Str) : Option Str :=
  if opens name then some name else openIn opens name paths

end Verif.Params.Keywords
