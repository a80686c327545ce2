set_option autoImplicit false

/-!
# The output of simulated processes

Model of where the output of simulated processes goes: the end of the constructor in
sstmac/software/process/app.cc:298-353, and `coutStream` and `cerrStream`, app.cc:363-379.  Files that cannot be opened are not
modelled.
-/

namespace Verif.Os.AppStreams

/-- The application and the rank. -/
abbrev Proc := Nat × Nat

/-- `stdout`, `stderr`, `std::cout`, `std::cerr`. -/
inductive Stream where
  | out
  | err
  | cout
  | cerr
  deriving DecidableEq

/-- The word for the stream in parameters. -/
def Stream.word : Stream → String
  | .out => "stdout"
  | .err => "stderr"
  | .cout => "cout"
  | .cerr => "cerr"

/-- Names of files: as given in the parameters, `<stream>.app<n>`, `<stream>.app<n>.<rank>`.  Names of different forms are taken to
be different. -/
inductive Name where
  | given (s : String)
  | app (st : Stream) (a : Nat)
  | rank (st : Stream) (a t : Nat)
  deriving DecidableEq

/-- The parameters. -/
structure Opt where
  stdout : String := "stdout"
  stderr : String := "stderr"
  cout : String := "cout"
  cerr : String := "cerr"

/-- Where a stream goes; a file is opened to append or it is emptied. -/
inductive Target where
  | screen
  | file (n : Name) (append : Bool)
  deriving DecidableEq

/-- app.cc:303-314, :316-327, :329-340 and :342-353.  The second and third test for `stderr` look at the parameter of `stdout`; the
name for `cerr` by rank is made but not used. -/
def target (o : Opt) (p : Proc) : Stream → Target
  | .out =>
    if o.stdout = "stdout" then .screen
    else if o.stdout = "app" then .file (.app .out p.1) true
    else if o.stdout = "rank" then .file (.rank .out p.1 p.2) false
    else .file (.given o.stdout) true
  | .err =>
    if o.stderr = "stderr" then .screen
    else if o.stdout = "app" then .file (.app .err p.1) true
    else if o.stdout = "rank" then .file (.rank .err p.1 p.2) false
    else .file (.given o.stderr) true
  | .cout =>
    if o.cout = "cout" then .screen
    else if o.cout = "app" then .file (.app .cout p.1) false
    else if o.cout = "rank" then .file (.rank .cout p.1 p.2) false
    else .file (.given o.cout) false
  | .cerr =>
    if o.cerr = "cerr" then .screen
    else if o.cerr = "app" then .file (.app .cerr p.1) false
    else if o.cerr = "rank" then .file (.given o.cerr) false
    else .file (.given o.cerr) false

/-- A stream of a process. -/
abbrev Owner := Proc × Stream

/-- What a file holds: characters, with the stream that wrote them (`none`: from before the simulation, or a hole). -/
abbrev Content := List (Option Owner × Char)

/-- An open stream: what is in its buffer, and its place in the file if the file is not opened to append. -/
structure Handle where
  buf : List Char
  pos : Nat

/-- The files and the open streams. -/
structure St where
  files : Name → Content
  handles : Owner → Option Handle

/-- What happens. -/
inductive Ev where
  /-- The process is made. -/
  | start (p : Proc)
  /-- It prints. -/
  | write (w : Owner) (text : List Char)
  /-- The buffer is written to the file. -/
  | flush (w : Owner)
  deriving DecidableEq

/-- Assignment to a table. -/
def upd {α β : Type} [DecidableEq α] (f : α → β) (a : α) (b : β) (x : α) : β := if x = a then b else f x

/-- Opening one stream: `fopen` with `"a"` or `"w"`, `std::ofstream::open`. -/
def openOne (opts : Proc → Opt) (p : Proc) (s : St) (st : Stream) : St :=
  match target (opts p) p st with
  | .file n false => ⟨upd s.files n [], upd s.handles (p, st) (some ⟨[], 0⟩)⟩
  | _ => { s with handles := upd s.handles (p, st) (some ⟨[], 0⟩) }

/-- The content of a file after `t` is written at place `pos`. -/
def overwrite (l : Content) (pos : Nat) (t : Content) : Content :=
  l.take pos ++ List.replicate (pos - l.length) (none, Char.ofNat 0) ++ t ++ l.drop (pos + t.length)

/-- One event. -/
def step (opts : Proc → Opt) (s : St) : Ev → St
  | .start p => [Stream.out, .err, .cout, .cerr].foldl (openOne opts p) s
  | .write w text =>
    match s.handles w with
    | none => s
    | some h => { s with handles := upd s.handles w (some { h with buf := h.buf ++ text }) }
  | .flush w =>
    match s.handles w with
    | none => s
    | some h =>
      let t : Content := h.buf.map fun c => (some w, c)
      match target (opts w.1) w.1 w.2 with
      | .screen => { s with handles := upd s.handles w (some { h with buf := [] }) }
      | .file n true => ⟨upd s.files n (s.files n ++ t), upd s.handles w (some { h with buf := [] })⟩
      | .file n false => ⟨upd s.files n (overwrite (s.files n) h.pos t), upd s.handles w (some ⟨[], h.pos + t.length⟩)⟩

/-- A history. -/
def run (opts : Proc → Opt) (s : St) (h : List Ev) : St := h.foldl (step opts) s

end Verif.Os.AppStreams
