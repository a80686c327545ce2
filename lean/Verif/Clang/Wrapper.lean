/-
The compiler wrapper `sst++` (bin/sstcclib.py, sstcompile.py, sstlink.py, sstccutils.py): which commands
it runs for the arguments it is given, for C++.

The arguments are given as `argparse` parsed them (sstcclib.py:276-309): the options the wrapper knows and
the list of all other words.  Words of commands that carry one meaning are constructors of
`Tok`, other words are flags.  Not modelled: the wrapper script for configure runs, versions and
help, `-std` (a flag among those of the installation), compilers of C.
-/
set_option autoImplicit false
namespace SST.Clang.Wrapper

/-- Text. -/
abbrev Str := List Char

/-- A path: folder and name, `os.path.split`. -/
structure Path where
  /-- the folder -/
  dir : Str := []
  /-- the name -/
  base : Str
deriving DecidableEq, Repr

/-- Words of a command. -/
inductive Tok where
  | define (x : Str)
  | incDir (x : Str)
  | force (x : Str)
  | opt (x : Str)
  | debug
  | warn (x : Str)
  | libDir (x : Str)
  | lib (x : Str)
  | flag (x : Str)
  | pre
  | comp
  | file (p : Path)
  | out (p : Path)
deriving DecidableEq, Repr

/-- Which program a command runs. -/
inductive Prog where
  | cxx
  | clangTool
  | merge
  | llvmOpt
deriving DecidableEq, Repr

/-- An entry of the list of commands: where the output goes, words, temporary files; or a word that
was put into the list by mistake. -/
inductive Cmd where
  | run (pipe : Option Path) (prog : Prog) (words : List Tok) (temps : List Path)
  | word (x : Tok)
deriving DecidableEq, Repr

/-- The options that the wrapper knows, sstcclib.py:276-308. -/
structure Args where
  /-- `-o` -/
  output : Option Path := none
  /-- `-I` -/
  I : List Str := []
  /-- `-D` -/
  D : List Str := []
  /-- `-W`, with all words that begin with it -/
  W : List Str := []
  /-- `-L` -/
  L : List Str := []
  /-- `-l` -/
  l : List Str := []
  /-- `-O` -/
  O : Option Str := none
  /-- `-g` -/
  g : Bool := false
  /-- `-c` -/
  compile : Bool := false
  /-- `-E` -/
  preprocess : Bool := false
  /-- `--sst-component` -/
  component : Bool := false
  /-- `--skeletonize`, with the list of passes (none if its text is empty) -/
  skeletonize : Option (List Str) := none
  /-- `--memoize` -/
  memoize : Bool := false
  /-- `-fvisibility` -/
  visibility : Option Str := none
  /-- all other words, `extraArgs` -/
  extra : List Str := []
deriving DecidableEq, Repr

/-- The installation, sstccvars.py: with the source-to-source tool, flags, folders. -/
structure Conf where
  /-- `hasClang` -/
  clang : Bool
  /-- `sstCppFlags` -/
  cpp : List Str
  /-- `sstCxxFlagsStr` and `-fPIC` -/
  cxx : List Str
  /-- `sstLdFlags`, the flags for shared objects and the libraries of the simulator -/
  link : List Str
  /-- the folders of replaced headers, before the user's -/
  repl : List Str
  /-- the folder of MPI, after the user's -/
  sumi : Str
  /-- headers that are always included -/
  forced : List Str
  /-- definitions by mode, `addModeDefines`, sstcompile.py:105-115 -/
  defines : List Str

/-- Modes, sstcclib.py:184-187. -/
inductive Mode where
  | skeletonize
  | memoize
  | component
deriving DecidableEq, Repr

/-- `setMode`, `setDefaultMode`, sstcclib.py:221-228 and 373-397: nothing if two modes are
asked for. -/
def mode (a : Args) : Option Mode :=
  match a.skeletonize.isSome, a.memoize, a.component with
  | _, false, false => some .skeletonize
  | false, true, false => some .memoize
  | false, false, true => some .component
  | _, _, _ => none

/-- White space. -/
def isSpace (c : Char) : Bool := c = ' ' || c = '\t' || c = '\n' || c = '\r'

/-- `str.strip`. -/
def strip (p : Char → Bool) (s : Str) : Str := ((s.dropWhile p).reverse.dropWhile p).reverse

/-- What is done to a word that the wrapper does not know, sstcclib.py:433-437. -/
def clean (s : Str) : Str :=
  (strip (· = '\'') (strip isSpace s)).flatMap (fun c => if c = '"' then ['\\', '"'] else if c = ' ' then ['\\', ' '] else [c])

/-- `endswith`. -/
def endsWith (suf s : Str) : Bool := suf.isSuffixOf s

/-- What a word is. -/
inductive Kind where
  | object
  | source
  | asm
  | debug
  | other
deriving DecidableEq, Repr

/-- The tests of sstcclib.py:438-448. -/
def kind (s : Str) : Kind :=
  if endsWith ['.', 'o'] s then .object
  else if endsWith ['.', 'c', 'p', 'p'] s || endsWith ['.', 'c', 'c'] s || endsWith ['.', 'c'] s || endsWith ['.', 'c', 'x', 'x'] s || endsWith ['.', 'C'] s then .source
  else if endsWith ['.', 'S'] s || endsWith ['.', 's'] s then .asm
  else if ['-', 'g'].isPrefixOf s then .debug
  else .other

/-- `os.path.split`. -/
def split (s : Str) : Path :=
  ⟨((s.reverse.dropWhile (· ≠ '/')).drop 1).reverse, (s.reverse.takeWhile (· ≠ '/')).reverse⟩

/-- The source files, sstcclib.py:440-442. -/
def sources (a : Args) : List Path := ((a.extra.map clean).filter (kind · = .source)).map split

/-- The given objects, sstcclib.py:438-439. -/
def objects (a : Args) : List Path := ((a.extra.map clean).filter (kind · = .object)).map split

/-- The other words, sstcclib.py:445-450. -/
def others (a : Args) : List Tok :=
  (a.extra.map clean).filterMap (fun s => match kind s with
    | .debug => some .debug
    | .other => some (.flag s)
    | _ => none)

/-- `ctx.compilerFlags`, sstcclib.py:449-498. -/
def compilerFlags (c : Conf) (a : Args) : List Tok := others a ++ c.cxx.map .flag

/-- `args.I` after sstcclib.py:409-425. -/
def incs (c : Conf) (a : Args) (m : Mode) : List Str := if m = .skeletonize then c.repl ++ a.I ++ [c.sumi] else a.I

/-- `ctx.directIncludes` after sstcclib.py:416-422. -/
def forced (c : Conf) (m : Mode) : List Str := if m = .skeletonize then c.forced else []

/-- `swapSuffix`, sstccutils.py:2-5, on a name. -/
def swapSuffix (suf base : Str) : Str := (base.reverse.dropWhile (· ≠ '.')).reverse ++ suf

/-- `addPrefix`, sstccutils.py:13-19. -/
def addPrefix (p : Str) (f : Path) : Path := { f with base := p ++ f.base }

/-- `addPrefixAndRebase`, sstccutils.py:21-25. -/
def rebase (p : Str) (f : Path) (dir : Str) : Path := ⟨dir, p ++ f.base⟩

/-- `-O` if it is given. -/
def optTok (a : Args) : List Tok := a.O.toList.map .opt

/-- `-g` if it is given. -/
def dbgTok (a : Args) : List Tok := if a.g then [.debug] else []

/-- `addPreprocess`, sstcompile.py:46-60. -/
def addPreprocess (c : Conf) (a : Args) (m : Mode) (src : Path) (pipe : Option Path) : List Cmd :=
  [.run pipe .cxx ((forced c m).map .force ++ c.defines.map .define ++ a.D.map .define ++ (incs c a m).map .incDir
    ++ c.cpp.map .flag ++ compilerFlags c a ++ [.pre, .file src] ++ optTok a) []]

/-- The name of a preprocessed file. -/
def ppPrefix : Str := ['p', 'p', '.']
/-- The name of a transformed file. -/
def sstPrefix : Str := ['s', 's', 't', '.', 'p', 'p', '.']
/-- The name of a file with global variables. -/
def globPrefix : Str := ['s', 's', 't', 'G', 'l', 'o', 'b', 'a', 'l', 's', '.', 'p', 'p', '.']
/-- The name of its object. -/
def globObj : Str := ['s', 's', 't', 'G', 'l', 'o', 'b', 'a', 'l', 's', '.']
/-- The name of a temporary object. -/
def tmpPrefix : Str := ['t', 'm', 'p', '.']

/-- The compilation of the transformed file: with passes `addEmitLlvm`, `addLlvmOptPass`,
`addLlvmCompile`, sstcompile.py:62-103, otherwise sstcompile.py:179-192.  `addEmitLlvm` puts the word
`-O..` into the list of commands. -/
def compileTransformed (c : Conf) (a : Args) (repl tmp : Path) : List Cmd :=
  let passes := a.skeletonize.getD []
  if passes ≠ [] then
    let ll : Path := { tmp with base := swapSuffix ['l', 'l'] tmp.base }
    (optTok a).map .word ++ [.run none .cxx [.file repl, .out ll] [ll]]
      ++ passes.map (fun p => .run none .llvmOpt [.flag p, .file ll, .out ll] [])
      ++ [.run none .cxx ([.out tmp, .comp, .file ll] ++ compilerFlags c a) [tmp]]
  else [.run none .cxx (compilerFlags c a ++ [.out tmp, .comp, .file repl] ++ optTok a ++ dbgTok a) [tmp]]

/-- `addSrc2SrcCompile`, sstcompile.py:117-224. -/
def addSrc2Src (c : Conf) (a : Args) (src out : Path) : List Cmd :=
  let pp := rebase ppPrefix src out.dir
  let repl := rebase sstPrefix src out.dir
  let glob := { rebase globPrefix src out.dir with base := globPrefix ++ src.base ++ ['.', 'c', 'p', 'p'] }
  let tmp := addPrefix tmpPrefix out
  let gobj := addPrefix globObj out
  addPreprocess c a .skeletonize src (some pp)
    ++ [.run none .clangTool [.file pp] [pp, repl, glob]]
    ++ compileTransformed c a repl tmp
    ++ [.run none .cxx ([.out gobj, .comp, .file glob] ++ compilerFlags c a ++ c.cpp.map .flag ++ optTok a ++ dbgTok a) [gobj]]
    ++ [.run none .merge [.file tmp, .file gobj, .out out] []]

/-- `addComponentCompile`, sstcompile.py:226-239, and `addCompile`, sstcompile.py:241-254, which also sends the
output of the compiler to the object file. -/
def addPlain (c : Conf) (a : Args) (m : Mode) (src out : Path) : List Cmd :=
  [.run (if m = .component then none else some out) .cxx ((forced c m).map .force ++ c.defines.map .define ++ (incs c a m).map .incDir
    ++ c.cpp.map .flag ++ compilerFlags c a ++ [.comp, .file src, .out out]) []]

/-- The object of a source file, sstcclib.py:583-586. -/
def target (a : Args) (src : Path) : Path :=
  match a.output with
  | some o => if (objects a).length > 1 || !a.compile then ⟨[], swapSuffix ['o'] src.base⟩ else o
  | none => ⟨[], swapSuffix ['o'] src.base⟩

/-- `addLink`, sstlink.py:45-61. -/
def addLink (c : Conf) (a : Args) (objs : List Path) : List Cmd :=
  [.run none .cxx (c.link.map .flag ++ compilerFlags c a ++ a.L.map .libDir ++ a.l.map .lib ++ objs.map .file
    ++ [.out (a.output.getD ⟨[], ['a', '.', 'o', 'u', 't']⟩)]) []]

/-- What the wrapper does before it runs commands: stop, run the C compiler as it is (assembler files),
crash, or the list of commands. -/
inductive Plan where
  | refuse
  | crash
  | asIs
  | cmds (l : List Cmd)
deriving DecidableEq, Repr

/-- `run`, sstcclib.py:230-614.  A visibility other than `hidden` uses `ctx.compilerFlags` before it
exists (sstcclib.py:353-354). -/
def plan (c : Conf) (a : Args) : Plan :=
  if a.visibility.any (· ≠ ['h', 'i', 'd', 'd', 'e', 'n']) then .crash
  else match mode a with
  | none => .refuse
  | some m =>
    if (a.extra.map clean).any (kind · = .asm) then .asIs
    else if a.preprocess then .cmds ((sources a).flatMap (fun s => addPreprocess c a m s none))
    else
      let comp := (sources a).flatMap (fun s =>
        if c.clang && m = .skeletonize then addSrc2Src c a s (target a s) else addPlain c a m s (target a s))
      let link := if a.compile then [] else addLink c a ((sources a).map (target a) ++ objects a)
      .cmds (comp ++ link)

/-- `runAllCmds`, sstcclib.py:157-180: `code` is what a command returns.  Returned are the code, the
commands that ran and the temporary files that are known at the end; a word cannot be run. -/
def runAll (code : Cmd → Nat) : List Cmd → Option Nat × List Cmd × List Path
  | [] => (some 0, [], [])
  | .word x :: _ => (none, [.word x], [])
  | .run p g w t :: rest =>
    let r := code (.run p g w t)
    if r = 0 then
      let q := runAll code rest
      (q.1, .run p g w t :: q.2.1, t ++ q.2.2)
    else (some r, [.run p g w t], [])

/-- `TempFiles.cleanUp`, sstcclib.py:113-130: what is removed. -/
def removed (delSources delObjects : Bool) (temps : List Path) : List Path :=
  temps.filter (fun f => if endsWith ['.', 'o'] f.base then delObjects else delSources)

end SST.Clang.Wrapper
