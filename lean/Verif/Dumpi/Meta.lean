import Verif.Launch.Request
/-
The metafile of a dumpi trace and the names of the files of its ranks: sstmac/dumpi_util/dumpi_meta.{h,cc} and
sstmac/dumpi_util/dumpi_util.cc.

Not modelled: overflow of `atoi` and its leading blanks, failures to open the metafile.
-/
set_option autoImplicit false
namespace Verif.Dumpi.Meta

open Verif.Os.AppEnv (Str tokens)
open Verif.Launch.Request (atoi)

/-- The lines that `parsemeta` looks at, dumpi_meta.cc:78-99: `getline` is followed by `good`, which is false after a
line that ends with the file.  `acc` is the line being read. -/
def lines (acc : Str) : Str → List Str
  | [] => []
  | c :: s => if c = '\n' then acc :: lines [] s else lines (acc ++ [c]) s

/-- The fields of `DumpiMeta`, dumpi_meta.h:72-88: `none` stands for a number that is not set, which has an
arbitrary value, and for an empty prefix. -/
structure Info where
  /-- `numprocs_` with `numprocscheck_` -/
  procs : Option Int := none
  /-- `dirplusfileprefix_` with `fileprefixcheck_` -/
  root : Option Str := none
deriving DecidableEq

/-- The folder of the metafile with its slash, dumpi_meta.cc:124-125. -/
def folder (metafile : Str) : Str := (metafile.reverse.dropWhile (· ≠ '/')).reverse

/-- `parseFilePrefix`, dumpi_meta.cc:112-129: `find_first_of` gives 0 for an absolute name. -/
def withFolder (metafile pre : Str) : Str := if pre.head? = some '/' then pre else folder metafile ++ pre

/-- The name of the number, dumpi_meta.cc:133. -/
def kProcs : Str := ['n', 'u', 'm', 'p', 'r', 'o', 'c', 's']
/-- The name of the prefix, dumpi_meta.cc:134. -/
def kPrefix : Str := ['f', 'i', 'l', 'e', 'p', 'r', 'e', 'f', 'i', 'x']

/-- One line, dumpi_meta.cc:86-95, with `parseNumProcs`, dumpi_meta.cc:101-105. -/
def line (metafile : Str) (m : Info) (l : Str) : Info :=
  match tokens '=' l with
  | [k, v] => if k = kProcs then { m with procs := some (atoi v) } else if k = kPrefix then { m with root := some (withFolder metafile v) } else m
  | _ => m

/-- `parsemeta`, dumpi_meta.cc:78-99. -/
def parse (metafile text : Str) : Info := (lines [] text).foldl (line metafile) {}

/-- The constructor, dumpi_meta.cc:55-71: `none` if the metafile is refused. -/
def load (metafile text : Str) : Option Info :=
  let m := parse metafile text
  if m.procs.isNone && m.root.isNone then none else some m

/-- A rank with at least `w` digits, as `%0wd` writes it. -/
def pad (w rank : Nat) : Str := List.replicate (w - (Nat.toDigits 10 rank).length) '0' ++ Nat.toDigits 10 rank

/-- The name with `w` digits, dumpi_util.cc:64-72: `snprintf` keeps 254 characters. -/
def name (root : Str) (w rank : Nat) : Str := (root ++ '-' :: pad w rank ++ ['.', 'b', 'i', 'n']).take 254

/-- What opening a file gives. -/
inductive Open where
  /-- it exists -/
  | found
  /-- `ENOENT` -/
  | absent
  /-- any other error -/
  | failed
deriving DecidableEq

/-- How the search can end. -/
inductive Found where
  /-- this file -/
  | file (f : Str)
  /-- an exception: opening this file failed -/
  | error (f : Str)
  /-- an exception: there is no file -/
  | missing
deriving DecidableEq

/-- The loop of `dumpiFileName`, dumpi_util.cc:70-86, over the given widths. -/
def search (fs : Str → Open) (root : Str) (rank : Nat) : List Nat → Found
  | [] => .missing
  | w :: ws =>
    match fs (name root w rank) with
    | .found => .file (name root w rank)
    | .failed => .error (name root w rank)
    | .absent => search fs root rank ws

/-- `dumpiFileName`, dumpi_util.cc:55-91: widths 1 to 9. -/
def fileName (fs : Str → Open) (root : Str) (rank : Nat) : Found := search fs root rank [1, 2, 3, 4, 5, 6, 7, 8, 9]

end Verif.Dumpi.Meta
