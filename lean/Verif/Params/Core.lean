import Verif.Params.Model
/-
Parameters under SST core (sstmac/sst_core/integrated_core.cc, python_topology.cc, sstmacro.py): the
parameter file is read into scopes, handed to Python as nested dictionaries, distributed there to
nodes and switches, made flat for the components, and read back for the topology.
-/
set_option autoImplicit false
namespace Params.Core

mutual
/-- A value of a Python dictionary: a string or a dictionary. -/
inductive Val where
  | str (s : Str)
  | dict (d : Dict)
/-- A Python dictionary, in the order of insertion. -/
inductive Dict where
  | nil
  | cons (k : Str) (v : Val) (r : Dict)
end

/-- `key in d`, `d[key]` (sstmac/sst_core/sstmacro.py:9, 18-26). -/
def Dict.get? (k : Str) : Dict → Option Val
  | .nil => none
  | .cons m v r => if m = k then some v else r.get? k

/-- `PyDict_SetItem` (sstmac/sst_core/integrated_core.cc:157), `d[key] = v`. -/
def Dict.put (k : Str) (v : Val) : Dict → Dict
  | .nil => .cons k v .nil
  | .cons m u r => if m = k then .cons m v r else .cons m u (r.put k v)

/-- `del d[key]` (sstmac/sst_core/sstmacro.py:289). -/
def Dict.del (k : Str) : Dict → Dict
  | .nil => .nil
  | .cons m u r => if m = k then r.del k else .cons m u (r.del k)

/-- The keys of a dictionary. -/
def Dict.keys : Dict → List Str
  | .nil => []
  | .cons k _ r => k :: r.keys

/-- A value below nested dictionaries: `d[n1][n2]...[key]`, when it is a string. -/
def Dict.lookup : List Str → Str → Dict → Option Str
  | [], k, d => match d.get? k with | some (.str v) => some v | _ => none
  | n :: p, k, d => match d.get? n with | some (.dict u) => u.lookup p k | _ => none

/-- `py_add_params` (sstmac/sst_core/integrated_core.cc:147-159). -/
def addPars (d : Dict) : List (Str × Str) → Dict
  | [] => d
  | e :: ps => addPars (d.put e.1 (.str e.2)) ps

mutual
/-- `read_params`: `py_add_params` and then `py_add_sub_params`
(sstmac/sst_core/integrated_core.cc:216-218). -/
def _root_.Params.Tree.toDict : Tree → Dict
  | .node ps fs => fs.addTo (addPars .nil ps)
/-- `py_add_sub_params` (sstmac/sst_core/integrated_core.cc:161-173). -/
def _root_.Params.Forest.addTo : Forest → Dict → Dict
  | .nil, d => d
  | .cons n t r, d => r.addTo (d.put n (.dict t.toDict))
end

/-- `py_extract_params` (sstmac/sst_core/integrated_core.cc:113-145): a dictionary goes into the
namespace of its key, anything else is set with `addParamOverride`, which splits the key at dots and
takes a value with a dollar sign for a variable. -/
def Dict.extract : Dict → Tree → Except Err Tree
  | .nil, t => .ok t
  | .cons k (.str v) r, t =>
    match parseKeyval ⟨false, true⟩ 1 [] k v t with
    | .error e => .error e
    | .ok t' => r.extract t'
  | .cons k (.dict d) r, t =>
    match d.extract (t.sub k) with
    | .error e => .error e
    | .ok u => r.extract (t.setSub k u)

/-- `".".join` (sstmac/sst_core/sstmacro.py:91). -/
def join : List Str → Str
  | [] => []
  | [a] => a
  | a :: b :: r => a ++ '.' :: join (b :: r)

/-- `redoSubParams_impl` (sstmac/sst_core/sstmacro.py:81-92). -/
def Dict.flat : List Str → Dict → List (Str × Str)
  | _, .nil => []
  | ns, .cons k (.str v) r => (join (ns ++ [k]), v) :: r.flat ns
  | ns, .cons k (.dict d) r => d.flat (ns ++ [k]) ++ r.flat ns

/-- Setting parameters of a component one after the other; the last one counts
(sstmac/sst_core/sstmacro.py:97-98, and `addParams` of a component of SST core). -/
def setAll (m : List (Str × Str)) (l : List (Str × Str)) : List (Str × Str) :=
  l.foldl (fun m e => aset e.1 e.2 m) m

/-- `macroToCoreParams` (sstmac/sst_core/sstmacro.py:94-99). -/
def coreParams (d : Dict) : List (Str × Str) := setAll [] (d.flat [])

/-- The names in the dictionary that are treated specially (sstmac/sst_core/sstmacro.py:261-309). -/
def nodeW : Str := ['n', 'o', 'd', 'e']
def switchW : Str := ['s', 'w', 'i', 't', 'c', 'h']
def topologyW : Str := ['t', 'o', 'p', 'o', 'l', 'o', 'g', 'y']
def interconnectW : Str := ['i', 'n', 't', 'e', 'r', 'c', 'o', 'n', 'n', 'e', 'c', 't']
def debugW : Str := ['d', 'e', 'b', 'u', 'g']
def nameW : Str := ['n', 'a', 'm', 'e']
def idW : Str := ['i', 'd']

/-- `"app%d" % i` for `i in range(10)` (sstmac/sst_core/sstmacro.py:280-281). -/
def apps : List Str := (List.range 10).map fun i => ['a', 'p', 'p', Char.ofNat (48 + i)]

/-- The parameters of a node component, `defaultEpFxn` (sstmac/sst_core/sstmacro.py:115-125): those
of the node, then those of the topology, then the number of the node. -/
def nodeParams (nd top : Dict) (id : Str) : List (Str × Str) :=
  aset idW id (setAll (setAll [] (coreParams nd)) (coreParams top))

/-- One turn of the loop over applications (sstmac/sst_core/sstmacro.py:280-289). `none` is an
exception: the entry is not a dictionary or has no name. The import of the module of the application
is not modelled. -/
def moveApp (s : Dict × Dict) (a : Str) : Option (Dict × Dict) :=
  match s.2.get? a with
  | none => some s
  | some (.str _) => none
  | some (.dict u) =>
    match u.get? nameW with
    | none => none
    | some _ => some (s.1.put a (.dict u), s.2.del a)

/-- The loop over applications (sstmac/sst_core/sstmacro.py:280-289). -/
def moveApps : List Str → Dict × Dict → Option (Dict × Dict)
  | [], s => some s
  | a :: as, s => (moveApp s a).bind (moveApps as)

/-- The global values go into a namespace that has no such key
(sstmac/sst_core/sstmacro.py:302-309): `g` is the dictionary of all parameters. -/
def addGlobals : Dict → Dict → Dict
  | .nil, own => own
  | .cons k (.str v) r, own => addGlobals r (match own.get? k with | none => own.put k (.str v) | some _ => own)
  | .cons _ (.dict _) r, own => addGlobals r own

/-- `setupDeprecatedParams` up to the construction of the interconnect
(sstmac/sst_core/sstmacro.py:259-311). `debug` is the list of debug flags, joined, when there are any.
`none` is an exception. The dictionaries of node and switch are changed in place; here they are put
back. -/
def setup (d : Dict) (debug : Option Str) : Option Dict :=
  match d.get? nodeW, d.get? switchW, d.get? topologyW with
  | some (.dict nd), some (.dict sw), some (.dict top) =>
    match moveApps apps (nd, d) with
    | none => none
    | some (nd, d) =>
      let nd := (nd.put interconnectW (.dict (.cons topologyW (.dict top) .nil))).put topologyW (.dict top)
      let nd := match debug with | some l => nd.put debugW (.str l) | none => nd
      let sw := sw.put topologyW (.dict top)
      some ((d.put nodeW (.dict (addGlobals d nd))).put switchW (.dict (addGlobals d sw)))
  | _, _, _ => none

/-- The parameters of the topology in `sys_init` (sstmac/sst_core/python_topology.cc:345-365): the
values of the namespace `topology` under that prefix, when there are namespaces for the switch and the
topology. -/
def systemParams (t : Tree) : List (Str × Str) :=
  match t.sub topologyW with
  | .node ps _ => ps.map fun e => (topologyW ++ '.' :: e.1, e.2)

end Params.Core
