/-
Execution of a collective as a set of actions with dependencies
(sumi/collective_actor.{h,cc}), on all ranks at once and under every schedule.

Every rank builds its actions in `initDag`; an action starts when the actions it depends on
are complete (`clearDependencies`, collective_actor.cc:222-251, modelled exactly in
Engine.lean).  This file models what happens between the ranks:
  * a started send transmits its payload either eagerly (`sendEagerMessage`, :275-291: the
    payload is read when the message is posted, and the completion `payload_sent_ack`
    arrives at some later time) or by rendezvous (`sendRdmaGetHeader` :311-327,
    `nextRoundReadyToGet` :723-754: the payload is read from the sender's memory when the
    receiver gets it, and the send completes after that); the choice is arbitrary for every
    message here, while the code makes it by size (`protocolForAction`, :451-462);
  * a message waits until the receive with its key (round, sender rank) is active
    (`incomingHeader`, :756-793, `pending_recv_headers_`, `reputPending`, :521-539);
  * a receive copies or reduces the payload into its region (`dataRecved`, :578-636);
  * a local action (shuffle or join) changes local memory (`startAction`, :172-211).
Messages are delivered in any order and after any delay.
-/
set_option autoImplicit false
namespace SST.Coll

/-- Kinds of actions, collective_actor.h:76 (unroll and resolve actions are never built by
the collectives modelled here). -/
inductive Kind where
  | send | recv | loc
deriving DecidableEq, Repr

/-- All actions of one collective on all ranks. -/
structure Sys (A L V K : Type) where
  /-- the actions -/
  all : List A
  kind : A → Kind
  /-- the receive that a send is meant for, and vice versa; used only in the conditions,
  the execution matches messages by `key` -/
  peer : A → A
  /-- receiver rank, sender rank and round: `messageId`, collective_actor.h:106-110 -/
  key : A → K
  /-- `dep a b`: `addDependency(b, a)` was called -/
  dep : A → A → Prop
  /-- the elements a send transmits, in order (`getSendBuffer`, collective_actor.cc:673-697) -/
  reads : A → List L
  /-- the elements a receive or local action may change -/
  writes : A → L → Prop
  /-- the elements whose value an action uses -/
  touch : A → L → Prop
  /-- new memory from the payload and the old memory -/
  eff : A → List V → (L → V) → L → V

/-- An action waits for others, is in progress, or is complete: `pending_comms_`, `active_comms_` and cleared, collective_actor.cc:161-273. -/
inductive Status where
  | idle | active | done
deriving DecidableEq, Repr

/-- What has become of the message of a send. -/
inductive Net (V : Type) where
  | unsent
  | eager (payload : List V)
  | rdvz
  | gone

/-- The state of all ranks: the status of every action, the message of every send and the memory (collective_actor.cc:161-273 and :490-640). -/
structure State (A L V : Type) where
  st : A → Status
  net : A → Net V
  mem : L → V

variable {A L V K : Type} [DecidableEq A]

/-- `f[a] := x`. -/
def upd {B : Type} (f : A → B) (a : A) (x : B) : A → B := fun b => if b = a then x else f b

/-- One step of some rank or of the network. -/
inductive Step (S : Sys A L V K) : State A L V → State A L V → Prop
  /-- all dependencies complete: `startAction` -/
  | start (s : State A L V) (a : A) (h : a ∈ S.all) (hi : s.st a = .idle)
      (hd : ∀ b, S.dep a b → s.st b = .done) :
      Step S s { s with st := upd s.st a .active }
  /-- `sendEagerMessage` -/
  | postEager (s : State A L V) (a : A) (h : a ∈ S.all) (hk : S.kind a = .send)
      (hi : s.st a = .active) (hn : s.net a = .unsent) :
      Step S s { s with net := upd s.net a (.eager ((S.reads a).map s.mem)) }
  /-- `sendRdmaGetHeader` -/
  | postRdvz (s : State A L V) (a : A) (h : a ∈ S.all) (hk : S.kind a = .send)
      (hi : s.st a = .active) (hn : s.net a = .unsent) :
      Step S s { s with net := upd s.net a .rdvz }
  /-- the acknowledgement of an eager send: `dataSent` -/
  | ack (s : State A L V) (a : A) (h : a ∈ S.all) (hk : S.kind a = .send)
      (hi : s.st a = .active) (hn : (∃ pl, s.net a = .eager pl) ∨ s.net a = .gone) :
      Step S s { s with st := upd s.st a .done }
  /-- an eager message reaches the active receive with its key -/
  | recvEager (s : State A L V) (a r : A) (pl : List V) (h : a ∈ S.all) (hk : S.kind a = .send)
      (hr : r ∈ S.all) (hkr : S.kind r = .recv) (hi : s.st r = .active)
      (hn : s.net a = .eager pl) (hkey : S.key a = S.key r) :
      Step S s { st := upd s.st r .done, net := upd s.net a .gone, mem := S.eff r pl s.mem }
  /-- the receive with the key of a rendezvous message gets the data from the sender -/
  | recvRdvz (s : State A L V) (a r : A) (h : a ∈ S.all) (hk : S.kind a = .send)
      (hr : r ∈ S.all) (hkr : S.kind r = .recv) (hi : s.st r = .active)
      (hn : s.net a = .rdvz) (hkey : S.key a = S.key r) :
      Step S s { st := upd (upd s.st r .done) a .done, net := upd s.net a .gone,
                 mem := S.eff r ((S.reads a).map s.mem) s.mem }
  /-- a shuffle or join runs -/
  | local (s : State A L V) (a : A) (h : a ∈ S.all) (hk : S.kind a = .loc) (hi : s.st a = .active) :
      Step S s { s with st := upd s.st a .done, mem := S.eff a [] s.mem }

/-- The state after `initBuffers`: no action started. -/
def start (M0 : L → V) : State A L V := { st := fun _ => .idle, net := fun _ => .unsent, mem := M0 }

/-- States reachable by any schedule. -/
inductive Reach (S : Sys A L V K) (M0 : L → V) : State A L V → Prop
  | init : Reach S M0 (start M0)
  | step {s s' : State A L V} (h : Reach S M0 s) (hs : Step S s s') : Reach S M0 s'

/-- The collective is over. -/
def Finished (S : Sys A L V K) (s : State A L V) : Prop := ∀ a ∈ S.all, s.st a = .done

/-- Every execution ends, whatever the schedule; when it has ended all actions of all ranks
are complete, every message has been received, and the memory satisfies `Q`. -/
def Yields (S : Sys A L V K) (M0 : L → V) (Q : (L → V) → Prop) : Prop :=
  (∀ s, Reach S M0 s → (¬ ∃ s', Step S s s') →
    Finished S s ∧ (∀ a ∈ S.all, S.kind a = .send → (match s.net a with | .gone => True | _ => False)) ∧
    Q s.mem) ∧
  ¬ ∃ f : Nat → State A L V, f 0 = start M0 ∧ ∀ n, Step S (f n) (f (n + 1))

end SST.Coll
