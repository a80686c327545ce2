import Verif.Parallel.Links
set_option autoImplicit false
/-
What the wiring of a parallel machine has to be, stated from the topology and the
partition alone: who sends to whom, on which worker each side runs, and with what latency.
-/
namespace SST.Parallel.Links

/-- The worker a switch, and the nodes attached to it, run on. -/
def Cfg.home (c : Cfg) (s : Nat) : Worker := ⟨c.rank s, c.thread s⟩

/-- `Wire c f wf t wt lat`: the machine described by `c` must have a link from the place `f`
of worker `wf` to the handler `t` of worker `wt` with latency `lat`.

* every node can hand messages to the LogP switch of its own worker, and the LogP switch of
  every worker of the machine reaches every node;
* every connection of the topology carries payload forwards and credits backwards;
* every node injects into and is served by its switch, with credits the other way.

In the LogP-only models there are no switches. -/
inductive Wire (c : Cfg) : Sender → Worker → Recv → Worker → Nat → Prop
  | toLogp {s p} : s < c.nsw → p ∈ c.inj s →
      Wire c (.nicLogp p.nid) (c.home s) (.logpIn p.swPort) (c.home s) 0
  | fromLogp {s p w} : s < c.nsw → p ∈ c.inj s → w.rank < c.nproc → w.thread < c.nthread →
      Wire c (.logpOut p.nid) w (.nicLogp p.nid) (c.home s) c.logpLat
  | payload {s k} : c.logpModel = false → s < c.nsw → k ∈ c.out s →
      Wire c (.switchOut s k.srcPort) (c.home s) (.switchPayload k.dst k.dstPort)
        (c.home k.dst) c.linkLat
  | credit {s k} : c.logpModel = false → s < c.nsw → k ∈ c.out s →
      Wire c (.switchIn k.dst k.dstPort) (c.home k.dst) (.switchCredit s k.srcPort)
        (c.home s) c.linkLat
  | inject {s p} : c.logpModel = false → s < c.nsw → p ∈ c.inj s →
      Wire c (.nodeOut p.nid p.epPort) (c.home s) (.switchPayload s p.swPort) (c.home s) c.injLat
  | injectCredit {s p} : c.logpModel = false → s < c.nsw → p ∈ c.inj s →
      Wire c (.switchIn s p.swPort) (c.home s) (.nodeCredit p.nid p.epPort) (c.home s) c.injLat
  | eject {s p} : c.logpModel = false → s < c.nsw → p ∈ c.inj s →
      Wire c (.switchOut s p.swPort) (c.home s) (.nodePayload p.nid p.epPort) (c.home s) c.ejLat
  | ejectCredit {s p} : c.logpModel = false → s < c.nsw → p ∈ c.inj s →
      Wire c (.nodeIn p.nid p.epPort) (c.home s) (.switchCredit s p.swPort) (c.home s) c.ejLat

/-- The partition names existing workers for all switches of the machine, including the far
ends of connections. -/
structure Cfg.Ok (c : Cfg) : Prop where
  rank_lt : ∀ s, s < c.nsw → c.rank s < c.nproc
  thread_lt : ∀ s, s < c.nsw → c.thread s < c.nthread
  dst_lt : ∀ s k, s < c.nsw → k ∈ c.out s → k.dst < c.nsw

/-- `c'` is the same machine as `c`, split over workers differently. -/
def Repartitioned (c c' : Cfg) : Prop :=
  c'.nsw = c.nsw ∧ c'.inj = c.inj ∧ c'.out = c.out ∧ c'.logpModel = c.logpModel

end SST.Parallel.Links
