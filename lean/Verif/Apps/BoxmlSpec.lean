import Verif.Apps.Boxml
set_option autoImplicit false
/-
What a run of `boxml` has to be, from the graph of events alone.
-/
namespace SST.Apps.Boxml

/-- The rank that starts the event: where it computes, or where it sends from. -/
def home (G : Graph) (i : Nat) : Nat :=
  match G.ev i with
  | .comp b => G.rankOf b
  | .comm a _ => G.rankOf a

/-- The rank on which the event ends: where it computes, or where its message arrives. -/
def place (G : Graph) (i : Nat) : Nat :=
  match G.ev i with
  | .comp b => G.rankOf b
  | .comm _ b => G.rankOf b

/-- The record shows that the event has started. -/
def Entry.begins : Entry → Option Nat
  | .comp _ i => some i
  | .send _ i => some i
  | .pass _ i => some i
  | .recv _ _ => none

/-- The record shows that the event has ended. -/
def Entry.ends : Entry → Option Nat
  | .comp _ i => some i
  | .send _ _ => none
  | .pass _ i => some i
  | .recv _ i => some i

/-- Started, according to a record. -/
def Begun (log : List Entry) (i : Nat) : Prop := ∃ e, e ∈ log ∧ e.begins = some i

/-- Ended, according to a record. -/
def Ended (log : List Entry) (i : Nat) : Prop := ∃ e, e ∈ log ∧ e.ends = some i

/-- The entry is one that the graph calls for: computations at their rank, messages between
ranks sent by the one and received by the other, messages within a rank passed on. -/
def Proper (G : Graph) : Entry → Prop
  | .comp r i => i < G.n ∧ ∃ b, G.ev i = .comp b ∧ G.rankOf b = r
  | .send r i => i < G.n ∧ ∃ a b, G.ev i = .comm a b ∧ G.rankOf a = r ∧ G.rankOf b ≠ r
  | .pass r i => i < G.n ∧ ∃ a b, G.ev i = .comm a b ∧ G.rankOf a = r ∧ G.rankOf b = r
  | .recv r i => i < G.n ∧ ∃ a b, G.ev i = .comm a b ∧ G.rankOf a ≠ r ∧ G.rankOf b = r

/-- A graph that the skeleton can run: dependencies are events of the graph, each listed
once, without cycles; an event depends only on events that end on the rank where it starts;
a message within a rank depends on something. -/
structure Sound (G : Graph) : Prop where
  lt : ∀ i d, i < G.n → d ∈ G.deps i → d < G.n
  once : ∀ i, i < G.n → (G.deps i).Nodup
  acyclic : ∃ lvl : Nat → Nat, ∀ i d, i < G.n → d ∈ G.deps i → lvl d < lvl i
  here : ∀ i d, i < G.n → d ∈ G.deps i → place G d = home G i
  local_ : ∀ i a b, i < G.n → G.ev i = .comm a b → G.rankOf a = G.rankOf b → G.deps i ≠ []

end SST.Apps.Boxml
