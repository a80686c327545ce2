import Verif.Os.AppEnv
set_option autoImplicit false

/-!
# Debug flags

Model of sprockit/sprockit/debug.h and debug.cc, and of the option `-d` in sstmac/main/parseopts.cc.  The integer of a flag, a `DebugInt`
that the program declares, is known by a number.
-/

namespace Verif.Util.DebugFlags

open Verif.Os.AppEnv (Str find put tokens)

/-- The static members of `Debug`, debug.cc:60-67, with the integers of all flags.  `table` is `debug_ints_`, `pending` is
`debug_ints_init_`; `timestamp` is registered by debug.cc:53 itself, so that the latter is never null when it is first used. -/
structure St where
  fields : Nat → BitVec 64
  start : BitVec 64
  current : BitVec 64
  next : Nat
  table : Option (List (Str × Nat))
  pending : List (Str × Nat)

/-- The state before all registrations. -/
def St.init : St := ⟨fun _ => 0#64, 0#64, 0#64, 1, none, []⟩

/-- What a program does. -/
inductive Ev where
  | register (name : Str) (f : Nat)
  | on (f : Nat)
  | onName (name : Str)
  | off (f : Nat)
  | onAll
  | offAll

/-- `Debug::checkInit`, debug.cc:148-159: the table is made once. -/
def checkInit (s : St) : St :=
  match s.table with
  | none => { s with table := some s.pending, pending := [] }
  | some _ => s

/-- The integer of a flag is set. -/
def setF (g : Nat → BitVec 64) (f : Nat) (b : BitVec 64) (x : Nat) : BitVec 64 := if x = f then b else g x

/-- `Debug::assignSlot`, debug.cc:161-172; `none` is the exception.  `MAX_DEBUG_SLOT` is 63. -/
def assign (s : St) (f : Nat) : Option St :=
  if 63 < s.next then none
  else some { checkInit s with fields := setF s.fields f (BitVec.twoPow 64 s.next), next := s.next + 1 }

/-- The end of `Debug::turnOn`, debug.cc:144-145. -/
def enable (s : St) (f : Nat) : St := { s with start := s.start ||| s.fields f, current := s.current ||| s.fields f }

/-- `Debug::turnOn` of a flag, debug.cc:139-146. -/
def turnOn (s : St) (f : Nat) : Option St :=
  if s.fields f = 0#64 then (assign s f).map fun s => enable s f else some (enable s f)

/-- `Debug::turnOff` of a flag, debug.cc:128-137.  `operator~`, debug.h:81-84, changes the integer of the flag as well. -/
def turnOff (s : St) (f : Nat) : St :=
  if s.fields f = 0#64 then s
  else { s with fields := setF s.fields f (~~~ s.fields f), start := s.start &&& ~~~ s.fields f, current := s.current &&& ~~~ s.fields f }

/-- One event: `registerDebugSlot`, debug.cc:186-195; `turnOn` by name, debug.cc:174-184; `turnOn` and `turnOff` of everything,
debug.cc:86-89 and :123-126. -/
def step (s : St) : Ev → Option St
  | .register n f => some { s with pending := put s.pending n f }
  | .on f => turnOn s f
  | .onName n =>
    match find ((checkInit s).table.getD []) n with
    | none => none
    | some f => turnOn (checkInit s) f
  | .off f => some (turnOff s f)
  | .onAll => some { s with current := s.start }
  | .offAll => some { s with current := 0#64 }

/-- A history; `none` if it throws. -/
def run : St → List Ev → Option St
  | s, [] => some s
  | s, e :: h => match step s e with
    | none => none
    | some s => run s h

/-- The integers of flags joined by `operator|`, debug.h:100-106. -/
def mask (s : St) (fs : List Nat) : BitVec 64 := fs.foldr (fun f b => s.fields f ||| b) 0#64

/-- `Debug::slotActive`, debug.cc:242-246: whether `debug_printf`, debug.h:296-299, prints. -/
def prints (s : St) (fs : List Nat) : Bool := (s.current &&& mask s fs) ≠ 0#64

/-- Whether `conditional_debug_printf`, debug.h:301-304, and so `mpi_debug`, sumi-mpi/mpi_debug.h:58-62, prints.  The conjunction of an
integer and a condition is a truth value, and the truth value becomes the integer of a slot of that number, debug.h:71-73. -/
def condPrints (s : St) (fs : List Nat) (cond : Bool) : Bool :=
  (s.current &&& BitVec.twoPow 64 (if mask s fs ≠ 0#64 ∧ cond = true then 1 else 0)) ≠ 0#64

/-- `activateDebugs`, parseopts.cc:57-66. -/
def activate (s : St) (list : Str) : Option St := run s ((tokens ',' list).map Ev.onName)

/-- The loop of `normalize_string`, debug.cc:206-221: the text and the length of the line. -/
def wrapGo (indent : Str) (width : Nat) : Str → Nat → List Str → Str
  | out, _, [] => out
  | out, len, w :: ws =>
    if len = 0 then wrapGo indent width (out ++ w) w.length ws
    else if width < len + (w.length + 1) then wrapGo indent width (out ++ ['\n'] ++ indent ++ w) w.length ws
    else wrapGo indent width (out ++ [' '] ++ w) (len + (w.length + 1)) ws

/-- `normalize_string`, debug.cc:197-222. -/
def wrap (doc indent : Str) (width : Nat) : Str := wrapGo indent width indent 0 (tokens ' ' doc)

end Verif.Util.DebugFlags
