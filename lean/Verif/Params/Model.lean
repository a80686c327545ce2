/-!
# Parameter files

Model of the parameter scopes of `sprockit/sprockit/sim_parameters.{h,cc}`: reading a
parameter file line by line, dotted keys, variables, combining two sets of parameters
(command line over file) and writing the parameters out as text, which is how they are
sent to the other processes of a parallel run and inside application launch events.

Strings are lists of characters.  The hash map of values and the ordered maps of
namespaces and variables are association lists; no result depends on their order.  The
`read` marks of the entries only feed a warning and are left out.  `include` lines are
not modelled: they give `Err.include`.
-/
set_option autoImplicit false

namespace Params

/-- `std::string`. -/
abbrev Str := List Char

/-- The characters removed by `trim_str`: blank, carriage return, newline, but not tab
(sprockit/sprockit/basic_string_tokenizer.h:52-53). -/
def blank (c : Char) : Bool := c == ' ' || c == '\r' || c == '\n'

/-- `trim_str` (sprockit/sprockit/basic_string_tokenizer.h:52-64). -/
def trim (s : Str) : Str := ((s.dropWhile blank).reverse.dropWhile blank).reverse

/-- How reading can stop without a result: the program aborts with a message, it
accesses the end of an empty list, its recursion is deeper than the stack, or the
line is an `include`, which is not modelled. -/
inductive Err where
  | abort
  | ub
  | deep
  | include
  deriving DecidableEq, Repr

/-! ## Maps -/

/-- `find` in a map (sprockit/sprockit/sim_parameters.cc:888, 956, 996). -/
def aget (k : Str) : List (Str × Str) → Option Str
  | [] => none
  | (k', v) :: r => if k' = k then some v else aget k r

/-- `map[k] = v` (sprockit/sprockit/sim_parameters.cc:832, 1002-1003, 1009-1012). -/
def aset (k v : Str) : List (Str × Str) → List (Str × Str)
  | [] => [(k, v)]
  | (k', v') :: r => if k' = k then (k', v) :: r else (k', v') :: aset k v r

/-- `params_.erase(key)` (sprockit/sprockit/sim_parameters.cc:869-873). -/
def adel (k : Str) (ps : List (Str × Str)) : List (Str × Str) :=
  ps.filter fun e => !(e.1 == k)

mutual
/-- One scope: its parameters and its namespaces
(sprockit/sprockit/sim_parameters.h:386, 393). -/
inductive Tree where
  | node (ps : List (Str × Str)) (fs : Forest)
/-- The namespaces of a scope, `subspaces_` (sprockit/sprockit/sim_parameters.h:386). -/
inductive Forest where
  | nil
  | cons (n : Str) (t : Tree) (r : Forest)
end

/-- A scope as made by `buildLocalNamespace`
(sprockit/sprockit/sim_parameters.cc:241-244, 397-406). -/
def Tree.empty : Tree := .node [] .nil

/-- `subspaces_.find(ns)` (sprockit/sprockit/sim_parameters.cc:311-316, 389-394). -/
def Forest.get? (n : Str) : Forest → Option Tree
  | .nil => none
  | .cons m t r => if m = n then some t else r.get? n

/-- The scope stored under a name is now `t`
(sprockit/sprockit/sim_parameters.cc:404). -/
def Forest.put (n : Str) (t : Tree) : Forest → Forest
  | .nil => .cons n t .nil
  | .cons m u r => if m = n then .cons m t r else .cons m u (r.put n t)

/-- `getOptionalNamespace` / `getOptionalLocalNamespace`: the namespace of that name,
or a new empty one (sprockit/sprockit/sim_parameters.cc:386-395, 421-433;
`_get_namespace` 307-317 looks only into the scope itself, not into the parents). -/
def Tree.sub (n : Str) : Tree → Tree
  | .node _ fs => (fs.get? n).getD .empty

/-- The scope `t` with the namespace `n` being `u`
(sprockit/sprockit/sim_parameters.cc:404). -/
def Tree.setSub (t : Tree) (n : Str) (u : Tree) : Tree :=
  match t with
  | .node ps fs => .node ps (fs.put n u)

/-- Following a list of namespace names and then `getParam(inout, key)`
(sprockit/sprockit/sim_parameters.cc:884-901). -/
def Tree.lookup : List Str → Str → Tree → Option Str
  | [], k, .node ps _ => aget k ps
  | n :: p, k, .node _ fs =>
    match fs.get? n with
    | none => none
    | some t => Tree.lookup p k t

/-! ## Assignments -/

/-- The two flags handed down to every assignment: `fail_on_existing`,
`override_existing` (sprockit/sprockit/sim_parameters.cc:977-978). -/
structure Mode where
  fail : Bool
  over : Bool

/-- `doAddParam` once the value is not a variable
(sprockit/sprockit/sim_parameters.cc:996-1013). -/
def put (m : Mode) (k v : Str) (ps : List (Str × Str)) : Except Err (List (Str × Str)) :=
  match aget k ps with
  | some _ => if m.fail then .error .abort else if m.over then .ok (aset k v ps) else .ok ps
  | none => .ok (aset k v ps)

/-- `getVariable` and the recursion of `doAddParam` on values that begin with a dollar
sign (sprockit/sprockit/sim_parameters.cc:953-971, 981-986).  `fuel` is the depth of the
recursion the stack can take.  Variables are only ever set on the scope that is being
read, of which all scopes here are descendants, so one map is enough. -/
def resolve : Nat → List (Str × Str) → Str → Except Err Str
  | fuel, vars, v =>
    match v with
    | '$' :: n =>
      match fuel with
      | 0 => .error .deep
      | fuel + 1 =>
        match aget n vars with
        | none => .error .abort
        | some u => resolve fuel vars u
    | _ => .ok v

/-- The loop of `getScopeAndKey`: the text up to each dot names a namespace, what
remains is the key (sprockit/sprockit/sim_parameters.cc:664-677). -/
def splitDots : Str → List Str × Str
  | [] => ([], [])
  | c :: s =>
    if c = '.' then ([] :: (splitDots s).1, (splitDots s).2)
    else
      match splitDots s with
      | ([], k) => ([], c :: k)
      | (n :: p, k) => ((c :: n) :: p, k)

/-- `doAddParam` in the scope reached by a list of namespaces, which are made on the
way when they do not exist (sprockit/sprockit/sim_parameters.cc:671-673, 688-690). -/
def addAt (m : Mode) : List Str → Str → Str → Tree → Except Err Tree
  | [], k, v, .node ps fs =>
    match put m k v ps with
    | .error e => .error e
    | .ok ps' => .ok (.node ps' fs)
  | n :: p, k, v, t =>
    match addAt m p k v (t.sub n) with
    | .error e => .error e
    | .ok t' => .ok (t.setSub n t')

/-- `parseKeyval` (sprockit/sprockit/sim_parameters.cc:679-691). -/
def parseKeyval (m : Mode) (fuel : Nat) (vars : List (Str × Str)) (key val : Str) (t : Tree) :
    Except Err Tree :=
  match resolve fuel vars val with
  | .error e => .error e
  | .ok v => addAt m (splitDots key).1 (splitDots key).2 v t

/-- `removeParam` in the scope reached by a list of namespaces
(sprockit/sprockit/sim_parameters.cc:840-843, 869-873). -/
def removeAt : List Str → Str → Tree → Tree
  | [], k, .node ps fs => .node (adel k ps) fs
  | n :: p, k, t => t.setSub n (removeAt p k (t.sub n))

/-- `split_line`: text before and after the first equals sign; without one both are the
whole line, because `npos + 1` is 0 (sprockit/sprockit/sim_parameters.cc:724-733). -/
def splitLine (l : Str) : Str × Str :=
  if '=' ∈ l then
    (trim (l.takeWhile fun c => !(c == '=')), trim ((l.dropWhile fun c => !(c == '=')).drop 1))
  else (trim l, trim l)

/-! ## Reading a file -/

/-- `line.find(w) != npos` (sprockit/sprockit/sim_parameters.cc:829, 833, 836, 840). -/
def contains (w : Str) : Str → Bool
  | [] => w.isPrefixOf []
  | c :: s => w.isPrefixOf (c :: s) || contains w s

/-- The words looked for in a line (sprockit/sprockit/sim_parameters.cc:829). -/
def setVar : Str := ['s', 'e', 't', ' ', 'v', 'a', 'r', ' ']
/-- The words looked for in a line (sprockit/sprockit/sim_parameters.cc:836). -/
def includeW : Str := ['i', 'n', 'c', 'l', 'u', 'd', 'e']
/-- The words looked for in a line (sprockit/sprockit/sim_parameters.cc:840). -/
def unsetW : Str := ['u', 'n', 's', 'e', 't']

/-- What a line of a parameter file asks for. -/
inductive Dir where
  | nothing
  | close
  | opn (n : Str)
  | var (n v : Str)
  | assign (key val : Str)
  | incl
  | unset (key : Str)
  | bad
  deriving DecidableEq, Repr

/-- The tests of the reading loop on a line that has been trimmed, in the order of the
code (sprockit/sprockit/sim_parameters.cc:814-846, 739). -/
def classify (l : Str) : Dir :=
  match l with
  | [] => .nothing
  | c :: _ =>
    if c = '#' then .nothing
    else if c = '}' then .close
    else if l.getLast? = some '{' then .opn (trim l.dropLast)
    else if contains setVar l then .var (splitLine (l.drop 8)).1 (splitLine (l.drop 8)).2
    else if '=' ∈ l then .assign (splitLine l).1 (splitLine l).2
    else if contains includeW l then .incl
    else if contains unsetW l then .unset (trim (l.drop 5))
    else .bad

/-- The state of the reading loop: the variables of the scope being read, the scope at
the back of `ns_queue`, and the scopes below it with the name under which each one
holds the next (sprockit/sprockit/sim_parameters.cc:807-808, 813).  The queue holds
pointers to scopes nested in one another and only the last one is changed, so each
enclosing scope is brought up to date when the scope inside it is closed. -/
structure St where
  vars : List (Str × Str)
  cur : Tree
  up : List (Str × Tree)

/-- One pass of the reading loop (sprockit/sprockit/sim_parameters.cc:816-846).
Closing the outermost scope leaves the queue empty and the next `back()` is undefined;
here that is an error at once. -/
def exec (m : Mode) (fuel : Nat) (d : Dir) (s : St) : Except Err St :=
  match d with
  | .nothing => .ok s
  | .close =>
    match s.up with
    | [] => .error .ub
    | (n, par) :: r => .ok ⟨s.vars, par.setSub n s.cur, r⟩
  | .opn n => .ok ⟨s.vars, s.cur.sub n, (n, s.cur) :: s.up⟩
  | .var n v => .ok ⟨aset n v s.vars, s.cur, s.up⟩
  | .assign key val =>
    match parseKeyval m fuel s.vars key val s.cur with
    | .error e => .error e
    | .ok t => .ok ⟨s.vars, t, s.up⟩
  | .incl => .error .include
  | .unset key => .ok ⟨s.vars, removeAt (splitDots key).1 (splitDots key).2 s.cur, s.up⟩
  | .bad => .error .abort

/-- The reading loop over the lines (sprockit/sprockit/sim_parameters.cc:810-847). -/
def run (m : Mode) (fuel : Nat) : List Str → St → Except Err St
  | [], s => .ok s
  | l :: r, s =>
    match exec m fuel (classify (trim l)) s with
    | .error e => .error e
    | .ok s' => run m fuel r s'

/-- `std::getline` until the end of the text
(sprockit/sprockit/sim_parameters.cc:810-811). -/
def textLines : Str → List Str
  | [] => [[]]
  | c :: s =>
    if c = '\n' then [] :: textLines s
    else
      match textLines s with
      | [] => [[c]]
      | l :: r => (c :: l) :: r

/-- All scopes closed: the scope that is being read
(sprockit/sprockit/sim_parameters.cc:804-848). -/
def closeAll : Tree → List (Str × Tree) → Tree
  | t, [] => t
  | t, (n, par) :: r => closeAll (par.setSub n t) r

/-- `parseStream` into a scope without variables
(sprockit/sprockit/sim_parameters.cc:803-848). -/
def parseStream (m : Mode) (fuel : Nat) (text : Str) (t : Tree) : Except Err Tree :=
  match run m fuel (textLines text) ⟨[], t, []⟩ with
  | .error e => .error e
  | .ok s => .ok (closeAll s.cur s.up)

/-- The flags of the main parameter file, of the broadcast text and of unpacking: do
not fail, override (sstmac/main/sstmac.cc:186,
sprockit/sprockit/sim_parameters.cc:770-771, 777, 792,
sprockit/sprockit/sim_parameters.h:659). -/
def over : Mode := ⟨false, true⟩

/-- The flags of the other parameter files: do not fail, do not override
(sprockit/sprockit/sim_parameters.cc:271-278). -/
def keep : Mode := ⟨false, false⟩

/-! ## Combining -/

/-- The first loop of `combineInto` (sprockit/sprockit/sim_parameters.cc:1052-1057). -/
def combinePs (m : Mode) (fuel : Nat) (vars : List (Str × Str)) :
    List (Str × Str) → Tree → Except Err Tree
  | [], d => .ok d
  | (k, v) :: r, d =>
    match parseKeyval m fuel vars k v d with
    | .error e => .error e
    | .ok d' => combinePs m fuel vars r d'

mutual
/-- `combineInto(sp)`: copy the parameters of `t` into `d`
(sprockit/sprockit/sim_parameters.cc:1046-1066). -/
def Tree.combineInto (m : Mode) (fuel : Nat) (vars : List (Str × Str)) :
    Tree → Tree → Except Err Tree
  | .node ps fs, d =>
    match combinePs m fuel vars ps d with
    | .error e => .error e
    | .ok d' => fs.combineInto m fuel vars d'
/-- The second loop of `combineInto` (sprockit/sprockit/sim_parameters.cc:1059-1065). -/
def Forest.combineInto (m : Mode) (fuel : Nat) (vars : List (Str × Str)) :
    Forest → Tree → Except Err Tree
  | .nil, d => .ok d
  | .cons n t r, d =>
    match t.combineInto m fuel vars (d.sub n) with
    | .error e => .error e
    | .ok t' => r.combineInto m fuel vars (d.setSub n t')
end

/-! ## Writing the parameters out -/

/-- The text ` = ` (sprockit/sprockit/sim_parameters.cc:412). -/
def eqSign : Str := [' ', '=', ' ']

/-- The first loop of `reproduceParams`
(sprockit/sprockit/sim_parameters.cc:411-413). -/
def printPs : List (Str × Str) → Str
  | [] => []
  | (k, v) :: r => k ++ eqSign ++ v ++ '\n' :: printPs r

mutual
/-- `reproduceParams` (sprockit/sprockit/sim_parameters.cc:408-419). -/
def Tree.reproduce : Tree → Str
  | .node ps fs => printPs ps ++ fs.reproduce
/-- The second loop of `reproduceParams`
(sprockit/sprockit/sim_parameters.cc:414-418). -/
def Forest.reproduce : Forest → Str
  | .nil => []
  | .cons n t r => n ++ ' ' :: '{' :: '\n' :: (t.reproduce ++ '}' :: '\n' :: r.reproduce)
end

/-- What the other processes of a parallel run build from the parameters `t` of
process 0, and what an unpacked `SST::Params` is made of: the text of `t` read into an
empty scope (sprockit/sprockit/sim_parameters.cc:783-792,
sprockit/sprockit/sim_parameters.h:651-667). -/
def resend (fuel : Nat) (t : Tree) : Except Err Tree :=
  parseStream over fuel t.reproduce .empty

/-! ## Lists -/

/-- `getTokenizer` up to the tokenizer: the text between the brackets, but with the
*position* of the closing bracket, less one, given as the *length* of the text; if that
position is 0 the length is the largest number there is (sprockit/sprockit/sim_parameters.cc:566-574). -/
def listText (v : Str) : Except Err Str :=
  if '[' ∈ v ∧ ']' ∈ v then
    if v.idxOf ']' = 0 then .ok (v.drop (v.idxOf '[' + 1))
    else .ok ((v.drop (v.idxOf '[' + 1)).take (v.idxOf ']' - 1))
  else .error .abort

/-- `tokenize` with a comma: runs of commas separate the tokens
(sprockit/sprockit/basic_string_tokenizer.h:88-133).  `acc` is the token being read. -/
def tokens (acc : Str) : Str → List Str
  | [] => if acc = [] then [] else [acc]
  | c :: s =>
    if c = ',' then (if acc = [] then tokens [] s else acc :: tokens [] s)
    else tokens (acc ++ [c]) s

/-- The pieces of a list parameter before each is converted
(sprockit/sprockit/sim_parameters.cc:562-577). -/
def listParam (v : Str) : Except Err (List Str) :=
  match listText v with
  | .error e => .error e
  | .ok s => .ok (tokens [] s)

end Params
