import Verif.Os.Threads
set_option autoImplicit false
/-
What a user expects of simulated threads, in terms of which thread runs at which simulated
time.
-/
namespace SST.Os.Threads

/-- One step of a proper program: the running thread makes a proper call, or an event runs. -/
def Sys.Next (s s' : Sys) : Prop :=
  (∃ t c, Proper s t c ∧ s.step (.call t c) = .ok s') ∨ s.step .pop = .ok s'

/-- Steps of a proper program from one state to another; `P` holds in every state before the
last one. -/
inductive Sys.While (P : Sys → Prop) : Sys → Sys → Prop
  | refl (s : Sys) : While P s s
  | next {s₁ s₂ s₃ : Sys} : While P s₁ s₂ → P s₂ → s₂.Next s₃ → While P s₁ s₃

/-- Thread `t` is on the processor. -/
def Sys.Runs (s : Sys) (t : Nat) : Prop := (s.th t).st = .running

/-- Thread `t` has finished. -/
def Sys.Finished (s : Sys) (t : Nat) : Prop := (s.th t).st = .done

/-- The node is idle: nothing runs and no event is pending. -/
def Sys.Idle (s : Sys) : Prop := s.active = none ∧ s.queue = []

end SST.Os.Threads
