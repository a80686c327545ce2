import Verif.Parallel.CoreLinks
set_option autoImplicit false
/-
C156: under SST core the Python configuration wires the machine that the topology describes:
every link has its own name and its own two ports, every component finds the links it asks
for when the ports of the topology come in pairs, and events and credits reach the places
they reach without SST core.  Two latencies differ, and a port number is taken twice.
-/
namespace SST.Parallel.CoreLinks
open SST.Parallel.Links

/-! ### Specification -/

/-- Every cable has two directions with the same two port numbers. -/
def Paired (m : Sys) : Prop :=
  ∀ s k, s < m.cfg.nsw → k ∈ m.cfg.out s →
    k.dst < m.cfg.nsw ∧ ⟨k.dstPort, s, k.srcPort⟩ ∈ m.cfg.out k.dst

/-- Every node is attached to one switch, the one `endpointToSwitch` names. -/
structure Attached (m : Sys) : Prop where
  node : ∀ s p, s < m.cfg.nsw → p ∈ m.cfg.inj s → p.nid < m.nodes ∧ m.swOf p.nid = s
  switch : ∀ n, n < m.nodes → m.swOf n < m.cfg.nsw

/-- The topology lists no connection twice. -/
def Once (m : Sys) : Prop :=
  ∀ s, s < m.cfg.nsw → (m.cfg.out s).Nodup ∧ (m.cfg.inj s).Nodup

/-- No port number of a switch or of a node is used for two cables, and no node uses
the number of the LogP port. -/
structure OnePort (m : Sys) : Prop where
  switch : ∀ s, s < m.cfg.nsw →
    ((m.cfg.out s).map (·.srcPort) ++ (m.cfg.inj s).map (·.swPort)).Nodup
  node : ∀ s p q, s < m.cfg.nsw → p ∈ m.cfg.inj s → q ∈ m.cfg.inj s → p.nid = q.nid →
    p.epPort = q.epPort → p = q
  logp : ∀ s p, s < m.cfg.nsw → p ∈ m.cfg.inj s → p.epPort ≠ 1

/-- `CoreWire m x y lat`: what is sent on the port `x` must arrive at the port `y` after
`lat` picoseconds, read off the topology. -/
inductive CoreWire (m : Sys) : Slot → Slot → Nat → Prop
  | payload {s k} : m.cfg.logpModel = false → s < m.cfg.nsw → k ∈ m.cfg.out s →
      CoreWire m ⟨.switch s, .out, k.srcPort⟩ ⟨.switch k.dst, .inp, k.dstPort⟩ m.cfg.linkLat
  | credit {s k} : m.cfg.logpModel = false → s < m.cfg.nsw → k ∈ m.cfg.out s →
      CoreWire m ⟨.switch k.dst, .inp, k.dstPort⟩ ⟨.switch s, .out, k.srcPort⟩ m.cfg.linkLat
  | inject {s p} : m.cfg.logpModel = false → s < m.cfg.nsw → p ∈ m.cfg.inj s →
      CoreWire m ⟨.node p.nid, .out, p.epPort⟩ ⟨.switch s, .inp, p.swPort⟩ m.cfg.injLat
  | injectCredit {s p} : m.cfg.logpModel = false → s < m.cfg.nsw → p ∈ m.cfg.inj s →
      CoreWire m ⟨.switch s, .inp, p.swPort⟩ ⟨.node p.nid, .out, p.epPort⟩ m.cfg.injLat
  | eject {s p} : m.cfg.logpModel = false → s < m.cfg.nsw → p ∈ m.cfg.inj s →
      CoreWire m ⟨.switch s, .out, p.swPort⟩ ⟨.node p.nid, .inp, p.epPort⟩ m.cfg.injLat
  | ejectCredit {s p} : m.cfg.logpModel = false → s < m.cfg.nsw → p ∈ m.cfg.inj s →
      CoreWire m ⟨.node p.nid, .inp, p.epPort⟩ ⟨.switch s, .out, p.swPort⟩ 1
  | toLogp {i} : i < m.nodes → CoreWire m ⟨.node i, .out, 1⟩ ⟨.logp, .inp, i⟩ 1
  | toLogpBack {i} : i < m.nodes → CoreWire m ⟨.logp, .inp, i⟩ ⟨.node i, .out, 1⟩ 1
  | fromLogp {i} : i < m.nodes → CoreWire m ⟨.logp, .out, i⟩ ⟨.node i, .inp, 1⟩ m.cfg.logpLat
  | fromLogpBack {i} : i < m.nodes → CoreWire m ⟨.node i, .inp, 1⟩ ⟨.logp, .out, i⟩ m.cfg.logpLat

/-- Where a link of the simulator without SST core is plugged in, as a port. -/
def sendPort : Sender → Slot
  | .switchOut s p => ⟨.switch s, .out, p⟩
  | .switchIn s p => ⟨.switch s, .inp, p⟩
  | .nodeOut n p => ⟨.node n, .out, p⟩
  | .nodeIn n p => ⟨.node n, .inp, p⟩
  | .nicLogp n => ⟨.node n, .out, 1⟩
  | .logpOut n => ⟨.logp, .out, n⟩

/-- The port whose handler a link of the simulator without SST core calls.  The LogP switch
has one handler for all its inputs. -/
def RecvPort : Recv → Slot → Prop
  | .switchPayload s p, y => y = ⟨.switch s, .inp, p⟩
  | .switchCredit s p, y => y = ⟨.switch s, .out, p⟩
  | .nodePayload n p, y => y = ⟨.node n, .inp, p⟩
  | .nodeCredit n p, y => y = ⟨.node n, .out, p⟩
  | .nicLogp n, y => y = ⟨.node n, .inp, 1⟩
  | .logpIn _, y => y.comp = .logp ∧ y.dir = .inp

/-! ### Names -/

theorem dec_inj {a b : Nat} (h : dec a = dec b) : a = b := by
  have := congrArg (fun l => Nat.ofDigitChars 10 l 0) h
  simpa [dec, Nat.ofDigitChars_ten_toDigits] using this

theorem dec_no (n : Nat) (c : Char) (hc : c.isDigit = false) : c ∉ dec n := by
  intro h
  have := Nat.isDigit_of_mem_toDigits (by omega) (by omega) h
  rw [hc] at this
  cases this

theorem cut {c : Char} : ∀ {a b r s : Str}, c ∉ a → c ∉ b → a ++ c :: r = b ++ c :: s → a = b ∧ r = s
  | [], [], _, _, _, _, h => ⟨rfl, by simpa using h⟩
  | [], y :: b, _, _, _, hb, h => by
      simp only [List.nil_append, List.cons_append, List.cons.injEq] at h
      exact absurd (by simp [h.1]) hb
  | x :: a, [], _, _, ha, _, h => by
      simp only [List.nil_append, List.cons_append, List.cons.injEq] at h
      exact absurd (by simp [h.1]) ha
  | x :: a, y :: b, _, _, ha, hb, h => by
      simp only [List.cons_append, List.cons.injEq] at h
      have := cut (fun hm => ha (List.mem_cons_of_mem _ hm)) (fun hm => hb (List.mem_cons_of_mem _ hm)) h.2
      exact ⟨by rw [h.1, this.1], this.2⟩

theorem portName_inj {d e : Dir} {a b : Nat} : portName d a = portName e b ↔ d = e ∧ a = b := by
  constructor
  · intro h
    cases d <;> cases e <;> simp [portName] at h
    · exact ⟨rfl, dec_inj h⟩
    · exact ⟨rfl, dec_inj h⟩
  · rintro ⟨rfl, rfl⟩; rfl

theorem linkName_inj {t : Str} {a b c d a' b' c' d' : Nat}
    (h : linkName t a b c d = linkName t a' b' c' d') : a = a' ∧ b = b' ∧ c = c' ∧ d = d' := by
  have h := List.append_cancel_left h
  have no (n) (c : Char) (hc) := dec_no n c hc
  obtain ⟨h1, h⟩ := cut (no a ':' (by decide)) (no a' ':' (by decide)) h
  obtain ⟨h2, h⟩ := cut (no b '-' (by decide)) (no b' '-' (by decide)) h
  simp only [List.cons.injEq, true_and] at h
  obtain ⟨h3, h4⟩ := cut (no c ':' (by decide)) (no c' ':' (by decide)) h
  exact ⟨dec_inj h1, dec_inj h2, dec_inj h3, dec_inj h4⟩

/-! ### What is built -/

/-- The links, one constructor per loop of the configuration. -/
inductive Kind (m : Sys) : CLink → Prop
  | net {s k} : m.cfg.logpModel = false → s < m.cfg.nsw → k ∈ m.cfg.out s →
      Kind m (uniLink networkW (.switch s) s k.srcPort (.switch k.dst) k.dst k.dstPort m.cfg.linkLat none)
  | inj {s p} : m.cfg.logpModel = false → s < m.cfg.nsw → p ∈ m.cfg.inj s →
      Kind m (uniLink injectionW (.node p.nid) p.nid p.epPort (.switch s) s p.swPort m.cfg.injLat none)
  | ej {s p} : m.cfg.logpModel = false → s < m.cfg.nsw → p ∈ m.cfg.inj s →
      Kind m (uniLink ejectionW (.switch s) s p.swPort (.node p.nid) p.nid p.epPort m.cfg.injLat (some smallLatency))
  | lin {i} : i < m.nodes → Kind m ⟨logPinjectionW ++ (dec i ++ '-' :: '>' :: dec 0),
      ⟨.node i, portName .out logpPort, smallLatency⟩, ⟨.logp, portName .inp i, smallLatency⟩⟩
  | lej {i} : i < m.nodes → Kind m ⟨logPejectionW ++ (dec 0 ++ '-' :: '>' :: dec i),
      ⟨.logp, portName .out i, m.cfg.logpLat⟩, ⟨.node i, portName .inp logpPort, m.cfg.logpLat⟩⟩

theorem mem_logP {m : Sys} {l : CLink} (h : l ∈ logPNetwork m) : Kind m l := by
  simp only [logPNetwork, List.mem_append, List.mem_map, List.mem_range] at h
  rcases h with ⟨i, hi, rfl⟩ | ⟨i, hi, rfl⟩
  · exact .lin hi
  · exact .lej hi

theorem mem_build {m : Sys} {l : CLink} : l ∈ build m ↔ Kind m l := by
  constructor
  · intro h
    unfold build at h
    cases hl : m.cfg.logpModel with
    | true => rw [hl] at h; exact mem_logP h
    | false =>
      rw [hl] at h
      simp only [Bool.false_eq_true, if_false, List.mem_append, connectSwitches, connectEndpoints,
        List.mem_flatMap, List.mem_map, List.mem_range] at h
      rcases h with (⟨s, hs, k, hk, rfl⟩ | ⟨s, hs, ⟨p, hp, rfl⟩ | ⟨p, hp, rfl⟩⟩) | h
      · exact .net hl hs hk
      · exact .inj hl hs hp
      · exact .ej hl hs hp
      · exact mem_logP h
  · intro h
    have hlogp : ∀ l, l ∈ logPNetwork m → l ∈ build m := by
      intro l h; unfold build; split
      · exact h
      · exact List.mem_append_right _ h
    cases h with
    | net hl hs hk =>
      simp only [build, hl, Bool.false_eq_true, if_false, List.mem_append, connectSwitches,
        List.mem_flatMap, List.mem_map, List.mem_range]
      exact .inl (.inl ⟨_, hs, _, hk, rfl⟩)
    | inj hl hs hk =>
      simp only [build, hl, Bool.false_eq_true, if_false, List.mem_append, connectEndpoints,
        List.mem_flatMap, List.mem_map, List.mem_range]
      exact .inl (.inr ⟨_, hs, .inl ⟨_, hk, rfl⟩⟩)
    | ej hl hs hk =>
      simp only [build, hl, Bool.false_eq_true, if_false, List.mem_append, connectEndpoints,
        List.mem_flatMap, List.mem_map, List.mem_range]
      exact .inl (.inr ⟨_, hs, .inr ⟨_, hk, rfl⟩⟩)
    | lin hi =>
      apply hlogp
      simp only [logPNetwork, List.mem_append, List.mem_map, List.mem_range]
      exact .inl ⟨_, hi, rfl⟩
    | lej hi =>
      apply hlogp
      simp only [logPNetwork, List.mem_append, List.mem_map, List.mem_range]
      exact .inr ⟨_, hi, rfl⟩

/-- The slots, read off the topology. -/
theorem mem_slots {m : Sys} {x : Slot} : x ∈ slots m ↔
    (m.cfg.logpModel = false ∧ ∃ s, s < m.cfg.nsw ∧
      ((∃ k, k ∈ m.cfg.out s ∧ (x = ⟨.switch s, .out, k.srcPort⟩ ∨ x = ⟨.switch s, .inp, k.srcPort⟩)) ∨
       (∃ p, p ∈ m.cfg.inj s ∧ (x = ⟨.switch s, .out, p.swPort⟩ ∨ x = ⟨.switch s, .inp, p.swPort⟩)))) ∨
    (∃ n, n < m.nodes ∧ (x = ⟨.node n, .inp, 1⟩ ∨ x = ⟨.node n, .out, 1⟩ ∨
      (m.cfg.logpModel = false ∧ ∃ p, p ∈ m.cfg.inj (m.swOf n) ∧ p.nid = n ∧
        (x = ⟨.node n, .out, p.epPort⟩ ∨ x = ⟨.node n, .inp, p.epPort⟩)))) ∨
    (∃ i, i < m.nodes ∧ (x = ⟨.logp, .inp, i⟩ ∨ x = ⟨.logp, .out, i⟩)) := by
  cases hl : m.cfg.logpModel <;>
    simp [slots, hl, switchSlots, nodeSlots, nodeLogpSlots, injectionPorts, logpSlots,
      initInputLink, initOutputLink, logpPort, or_assoc, and_assoc]

theorem at_iff {c : Comp} {d : Dir} {n lat : Nat} {x : Slot} :
    (End.at ⟨c, portName d n, lat⟩ x = true) ↔ x = ⟨c, d, n⟩ := by
  obtain ⟨c', d', n'⟩ := x
  simp only [End.at, Slot.name, Bool.and_eq_true, beq_iff_eq, portName_inj, Slot.mk.injEq]
  constructor
  · rintro ⟨rfl, rfl, rfl⟩; exact ⟨rfl, rfl, rfl⟩
  · rintro ⟨rfl, rfl, rfl⟩; exact ⟨rfl, rfl, rfl⟩

/-- The two ends of the links, as ports. -/
theorem wire_iff {m : Sys} {x y : Slot} {lat : Nat} :
    (∃ l, l ∈ build m ∧ ((l.a.at x = true ∧ l.b.at y = true ∧ l.a.lat = lat) ∨
      (l.b.at x = true ∧ l.a.at y = true ∧ l.b.lat = lat))) ↔ CoreWire m x y lat := by
  constructor
  · rintro ⟨l, hl, h⟩
    rw [mem_build] at hl
    cases hl with
    | net h1 h2 h3 =>
      simp only [uniLink, at_iff, Option.getD_none] at h
      rcases h with ⟨rfl, rfl, rfl⟩ | ⟨rfl, rfl, rfl⟩
      · exact .payload h1 h2 h3
      · exact .credit h1 h2 h3
    | inj h1 h2 h3 =>
      simp only [uniLink, at_iff, Option.getD_none] at h
      rcases h with ⟨rfl, rfl, rfl⟩ | ⟨rfl, rfl, rfl⟩
      · exact .inject h1 h2 h3
      · exact .injectCredit h1 h2 h3
    | ej h1 h2 h3 =>
      simp only [uniLink, at_iff, Option.getD_some] at h
      rcases h with ⟨rfl, rfl, rfl⟩ | ⟨rfl, rfl, rfl⟩
      · exact .eject h1 h2 h3
      · exact .ejectCredit h1 h2 h3
    | lin h1 =>
      simp only [at_iff] at h
      rcases h with ⟨rfl, rfl, rfl⟩ | ⟨rfl, rfl, rfl⟩
      · exact .toLogp h1
      · exact .toLogpBack h1
    | lej h1 =>
      simp only [at_iff] at h
      rcases h with ⟨rfl, rfl, rfl⟩ | ⟨rfl, rfl, rfl⟩
      · exact .fromLogp h1
      · exact .fromLogpBack h1
  · intro h
    cases h with
    | payload h1 h2 h3 => exact ⟨_, mem_build.2 (.net h1 h2 h3), .inl ⟨at_iff.2 rfl, at_iff.2 rfl, rfl⟩⟩
    | credit h1 h2 h3 => exact ⟨_, mem_build.2 (.net h1 h2 h3), .inr ⟨at_iff.2 rfl, at_iff.2 rfl, rfl⟩⟩
    | inject h1 h2 h3 => exact ⟨_, mem_build.2 (.inj h1 h2 h3), .inl ⟨at_iff.2 rfl, at_iff.2 rfl, rfl⟩⟩
    | injectCredit h1 h2 h3 => exact ⟨_, mem_build.2 (.inj h1 h2 h3), .inr ⟨at_iff.2 rfl, at_iff.2 rfl, rfl⟩⟩
    | eject h1 h2 h3 => exact ⟨_, mem_build.2 (.ej h1 h2 h3), .inl ⟨at_iff.2 rfl, at_iff.2 rfl, rfl⟩⟩
    | ejectCredit h1 h2 h3 => exact ⟨_, mem_build.2 (.ej h1 h2 h3), .inr ⟨at_iff.2 rfl, at_iff.2 rfl, rfl⟩⟩
    | toLogp h1 => exact ⟨_, mem_build.2 (.lin h1), .inl ⟨at_iff.2 rfl, at_iff.2 rfl, rfl⟩⟩
    | toLogpBack h1 => exact ⟨_, mem_build.2 (.lin h1), .inr ⟨at_iff.2 rfl, at_iff.2 rfl, rfl⟩⟩
    | fromLogp h1 => exact ⟨_, mem_build.2 (.lej h1), .inl ⟨at_iff.2 rfl, at_iff.2 rfl, rfl⟩⟩
    | fromLogpBack h1 => exact ⟨_, mem_build.2 (.lej h1), .inr ⟨at_iff.2 rfl, at_iff.2 rfl, rfl⟩⟩

theorem wire_slots {m : Sys} {x y : Slot} {lat : Nat} (hp : Paired m) (ha : Attached m)
    (h : CoreWire m x y lat) : x ∈ slots m ∧ y ∈ slots m := by
  simp only [mem_slots]
  cases h with
  | payload h1 h2 h3 =>
    exact ⟨.inl ⟨h1, _, h2, .inl ⟨_, h3, .inl rfl⟩⟩,
      .inl ⟨h1, _, (hp _ _ h2 h3).1, .inl ⟨_, (hp _ _ h2 h3).2, .inr rfl⟩⟩⟩
  | credit h1 h2 h3 =>
    exact ⟨.inl ⟨h1, _, (hp _ _ h2 h3).1, .inl ⟨_, (hp _ _ h2 h3).2, .inr rfl⟩⟩,
      .inl ⟨h1, _, h2, .inl ⟨_, h3, .inl rfl⟩⟩⟩
  | inject h1 h2 h3 =>
    have ⟨a, b⟩ := ha.node _ _ h2 h3
    exact ⟨.inr (.inl ⟨_, a, .inr (.inr ⟨h1, _, by rw [b]; exact h3, rfl, .inl rfl⟩)⟩),
      .inl ⟨h1, _, h2, .inr ⟨_, h3, .inr rfl⟩⟩⟩
  | injectCredit h1 h2 h3 =>
    have ⟨a, b⟩ := ha.node _ _ h2 h3
    exact ⟨.inl ⟨h1, _, h2, .inr ⟨_, h3, .inr rfl⟩⟩,
      .inr (.inl ⟨_, a, .inr (.inr ⟨h1, _, by rw [b]; exact h3, rfl, .inl rfl⟩)⟩)⟩
  | eject h1 h2 h3 =>
    have ⟨a, b⟩ := ha.node _ _ h2 h3
    exact ⟨.inl ⟨h1, _, h2, .inr ⟨_, h3, .inl rfl⟩⟩,
      .inr (.inl ⟨_, a, .inr (.inr ⟨h1, _, by rw [b]; exact h3, rfl, .inr rfl⟩)⟩)⟩
  | ejectCredit h1 h2 h3 =>
    have ⟨a, b⟩ := ha.node _ _ h2 h3
    exact ⟨.inr (.inl ⟨_, a, .inr (.inr ⟨h1, _, by rw [b]; exact h3, rfl, .inr rfl⟩)⟩),
      .inl ⟨h1, _, h2, .inr ⟨_, h3, .inl rfl⟩⟩⟩
  | toLogp h1 => exact ⟨.inr (.inl ⟨_, h1, .inr (.inl rfl)⟩), .inr (.inr ⟨_, h1, .inl rfl⟩)⟩
  | toLogpBack h1 => exact ⟨.inr (.inr ⟨_, h1, .inl rfl⟩), .inr (.inl ⟨_, h1, .inr (.inl rfl)⟩)⟩
  | fromLogp h1 => exact ⟨.inr (.inr ⟨_, h1, .inr rfl⟩), .inr (.inl ⟨_, h1, .inl rfl⟩)⟩
  | fromLogpBack h1 => exact ⟨.inr (.inl ⟨_, h1, .inl rfl⟩), .inr (.inr ⟨_, h1, .inr rfl⟩)⟩

/-! ### The properties -/

/-- C156.  Events and credits go exactly where the topology says, with these latencies. -/
theorem C156_carries (m : Sys) (hp : Paired m) (ha : Attached m) (x y : Slot) (lat : Nat) :
    Carries m x y lat ↔ CoreWire m x y lat := by
  unfold Carries
  rw [wire_iff]
  exact ⟨fun h => h.2.2, fun h => ⟨(wire_slots hp ha h).1, (wire_slots hp ha h).2, h⟩⟩

theorem started_iff {m : Sys} : started m = true ↔ ∀ x, x ∈ slots m → ∃ y lat, CoreWire m x y lat := by
  have aux : ∀ x, ((build m).any fun l => l.a.at x || l.b.at x) = true ↔ ∃ y lat, CoreWire m x y lat := by
    intro x
    simp only [List.any_eq_true, Bool.or_eq_true]
    have self : ∀ l, Kind m l → ∃ y z, l.a.at y = true ∧ l.b.at z = true := by
      intro l h
      cases h <;> exact ⟨_, _, at_iff.2 rfl, at_iff.2 rfl⟩
    constructor
    · rintro ⟨l, hl, h⟩
      obtain ⟨y, z, hy, hz⟩ := self l (mem_build.1 hl)
      rcases h with h | h
      · exact ⟨z, l.a.lat, wire_iff.1 ⟨l, hl, .inl ⟨h, hz, rfl⟩⟩⟩
      · exact ⟨y, l.b.lat, wire_iff.1 ⟨l, hl, .inr ⟨h, hy, rfl⟩⟩⟩
    · rintro ⟨y, lat, h⟩
      obtain ⟨l, hl, h⟩ := wire_iff.2 h
      rcases h with h | h
      · exact ⟨l, hl, .inl h.1⟩
      · exact ⟨l, hl, .inr h.1⟩
  simp only [started, List.all_eq_true]
  exact ⟨fun h x hx => (aux x).1 (h x hx), fun h x hx => (aux x).2 (h x hx)⟩

/-- C156.  The components find their links exactly when every output port of a switch is
also the far end of some connection or the port of a node. -/
theorem C156_started_iff (m : Sys) (ha : Attached m) (hl : m.cfg.logpModel = false) :
    started m = true ↔ ∀ s k, s < m.cfg.nsw → k ∈ m.cfg.out s →
      (∃ s' k', s' < m.cfg.nsw ∧ k' ∈ m.cfg.out s' ∧ k'.dst = s ∧ k'.dstPort = k.srcPort) ∨
      (∃ p, p ∈ m.cfg.inj s ∧ p.swPort = k.srcPort) := by
  rw [started_iff]
  constructor
  · intro h s k hs hk
    obtain ⟨y, lat, h⟩ := h ⟨.switch s, .inp, k.srcPort⟩
      (mem_slots.2 (.inl ⟨hl, s, hs, .inl ⟨k, hk, .inr rfl⟩⟩))
    generalize hx : (⟨.switch s, .inp, k.srcPort⟩ : Slot) = x at h
    cases h <;> simp only [Slot.mk.injEq, Comp.switch.injEq, reduceCtorEq, false_and, and_false, true_and] at hx
    · rename_i s' k' h1 h2 h3
      exact .inl ⟨s', k', h2, h3, hx.1.symm, hx.2.symm⟩
    · rename_i s' p h1 h2 h3
      exact .inr ⟨p, by rw [hx.1]; exact h3, hx.2.symm⟩
  · intro h x hx
    rcases mem_slots.1 hx with ⟨_, s, hs, ⟨k, hk, rfl | rfl⟩ | ⟨p, hp, rfl | rfl⟩⟩ |
      ⟨n, hn, rfl | rfl | ⟨_, p, hp, rfl, rfl | rfl⟩⟩ | ⟨i, hi, rfl | rfl⟩
    · exact ⟨_, _, .payload hl hs hk⟩
    · rcases h s k hs hk with ⟨s', k', a, b, rfl, d⟩ | ⟨p, a, b⟩
      · rw [← d]; exact ⟨_, _, .credit hl a b⟩
      · rw [← b]; exact ⟨_, _, .injectCredit hl hs a⟩
    · exact ⟨_, _, .eject hl hs hp⟩
    · exact ⟨_, _, .injectCredit hl hs hp⟩
    · exact ⟨_, _, .fromLogpBack hn⟩
    · exact ⟨_, _, .toLogp hn⟩
    · exact ⟨_, _, .inject hl (ha.switch _ hn) hp⟩
    · exact ⟨_, _, .ejectCredit hl (ha.switch _ hn) hp⟩
    · exact ⟨_, _, .toLogpBack hi⟩
    · exact ⟨_, _, .fromLogp hi⟩

/-- C156.  In the LogP model every component finds its links. -/
theorem C156_started_logp (m : Sys) (hl : m.cfg.logpModel = true) : started m = true := by
  rw [started_iff]
  intro x hx
  rcases mem_slots.1 hx with ⟨h, _⟩ | ⟨n, hn, rfl | rfl | ⟨h, _⟩⟩ | ⟨i, hi, rfl | rfl⟩
  · rw [hl] at h; cases h
  · exact ⟨_, _, .fromLogpBack hn⟩
  · exact ⟨_, _, .toLogp hn⟩
  · rw [hl] at h; cases h
  · exact ⟨_, _, .toLogpBack hi⟩
  · exact ⟨_, _, .fromLogp hi⟩

/-- C156.  When cables have two directions the machine starts. -/
theorem C156_started (m : Sys) (hp : Paired m) (ha : Attached m) : started m = true := by
  cases hl : m.cfg.logpModel with
  | true => exact C156_started_logp m hl
  | false =>
    rw [C156_started_iff m ha hl]
    intro s k hs hk
    exact .inl ⟨k.dst, _, (hp s k hs hk).1, (hp s k hs hk).2, rfl, rfl⟩

/-- C156.  No two links share a name. -/
theorem C156_names (m : Sys) (ho : Once m) : ((build m).map (·.name)).Nodup := by
  have hlogp : ((logPNetwork m).map (·.name)).Nodup := by
    simp only [logPNetwork, List.map_append, List.map_map]
    rw [List.nodup_append]
    refine ⟨?_, ?_, ?_⟩
    · rw [List.Nodup, List.pairwise_map]
      refine List.nodup_range.imp ?_
      intro a b hne h
      have h := List.append_cancel_left h
      exact hne (dec_inj (cut (dec_no a '-' (by decide)) (dec_no b '-' (by decide)) h).1)
    · rw [List.Nodup, List.pairwise_map]
      refine List.nodup_range.imp ?_
      intro a b hne h
      have h := List.append_cancel_left h
      have h := (cut (dec_no 0 '-' (by decide)) (dec_no 0 '-' (by decide)) h).2
      simp only [List.cons.injEq, true_and] at h
      exact hne (dec_inj h)
    · intro a ha b hb
      simp only [List.mem_map, Function.comp] at ha hb
      obtain ⟨_, _, rfl⟩ := ha
      obtain ⟨_, _, rfl⟩ := hb
      simp [logPinjectionW, logPejectionW, injectionW, ejectionW]
  unfold build
  split
  · exact hlogp
  · rw [List.map_append, List.map_append, List.nodup_append, List.nodup_append]
    refine ⟨⟨?_, ?_, ?_⟩, hlogp, ?_⟩
    · rw [List.Nodup, List.pairwise_map, connectSwitches, List.pairwise_flatMap]
      refine ⟨?_, ?_⟩
      · intro s hs
        rw [List.pairwise_map]
        refine (ho s (List.mem_range.1 hs)).1.imp ?_
        rintro ⟨a, b, c⟩ ⟨a', b', c'⟩ hne h
        obtain ⟨-, h1, h2, h3⟩ := linkName_inj h
        dsimp only at h1 h2 h3
        exact hne (by rw [h1, h2, h3])
      · refine List.nodup_range.imp ?_
        intro s t hne x hx y hy h
        simp only [List.mem_map] at hx hy
        obtain ⟨_, _, rfl⟩ := hx
        obtain ⟨_, _, rfl⟩ := hy
        exact hne (linkName_inj h).1
    · rw [List.Nodup, List.pairwise_map, connectEndpoints, List.pairwise_flatMap]
      refine ⟨?_, ?_⟩
      · intro s hs
        rw [List.pairwise_append, List.pairwise_map, List.pairwise_map]
        refine ⟨?_, ?_, ?_⟩
        · refine (ho s (List.mem_range.1 hs)).2.imp ?_
          rintro ⟨a, b, c⟩ ⟨a', b', c'⟩ hne h
          obtain ⟨h1, h2, -, h3⟩ := linkName_inj h
          dsimp only at h1 h2 h3
          exact hne (by rw [h1, h2, h3])
        · refine (ho s (List.mem_range.1 hs)).2.imp ?_
          rintro ⟨a, b, c⟩ ⟨a', b', c'⟩ hne h
          obtain ⟨-, h1, h2, h3⟩ := linkName_inj h
          dsimp only at h1 h2 h3
          exact hne (by rw [h1, h2, h3])
        · intro x hx y hy
          simp only [List.mem_map] at hx hy
          obtain ⟨_, _, rfl⟩ := hx
          obtain ⟨_, _, rfl⟩ := hy
          simp [uniLink, linkName, injectionW, ejectionW]
      · refine List.nodup_range.imp ?_
        intro s t hne x hx y hy h
        simp only [List.mem_append, List.mem_map] at hx hy
        rcases hx with ⟨_, _, rfl⟩ | ⟨_, _, rfl⟩ <;> rcases hy with ⟨_, _, rfl⟩ | ⟨_, _, rfl⟩
        · exact hne (linkName_inj h).2.2.1
        · simp [uniLink, linkName, injectionW, ejectionW] at h
        · simp [uniLink, linkName, injectionW, ejectionW] at h
        · exact hne (linkName_inj h).1
    · intro a ha b hb
      simp only [connectSwitches, connectEndpoints, List.mem_map, List.mem_flatMap, List.mem_append] at ha hb
      obtain ⟨_, ⟨_, _, _, _, rfl⟩, rfl⟩ := ha
      obtain ⟨_, ⟨_, _, ⟨_, _, rfl⟩ | ⟨_, _, rfl⟩⟩, rfl⟩ := hb <;>
        simp [uniLink, linkName, networkW, injectionW, ejectionW]
    · intro a ha b hb
      simp only [connectSwitches, connectEndpoints, logPNetwork, List.mem_map, List.mem_flatMap, List.mem_append] at ha hb
      rcases ha with ⟨_, ⟨_, _, _, _, rfl⟩, rfl⟩ | ⟨_, ⟨_, _, ⟨_, _, rfl⟩ | ⟨_, _, rfl⟩⟩, rfl⟩ <;>
      obtain ⟨_, ⟨_, _, rfl⟩ | ⟨_, _, rfl⟩, rfl⟩ := hb <;>
        simp [uniLink, linkName, networkW, injectionW, ejectionW, logPinjectionW, logPejectionW]

theorem nodup_append_map {α β γ : Type} {f : α → γ} {g : β → γ} {l : List α} {r : List β}
    (h : (l.map f ++ r.map g).Nodup) :
    (∀ a b, a ∈ l → b ∈ l → f a = f b → a = b) ∧ (∀ a b, a ∈ r → b ∈ r → g a = g b → a = b) ∧
    (∀ a b, a ∈ l → b ∈ r → f a ≠ g b) := by
  rw [List.nodup_append] at h
  have inj : ∀ {δ : Type} {k : δ → γ} {l : List δ}, (l.map k).Nodup →
      ∀ a b, a ∈ l → b ∈ l → k a = k b → a = b := by
    intro δ k l h a b ha hb e
    induction l with
    | nil => cases ha
    | cons x l ih =>
      rw [List.map_cons, List.nodup_cons] at h
      rcases List.mem_cons.1 ha with e1 | ha' <;> rcases List.mem_cons.1 hb with e2 | hb'
      · rw [e1, e2]
      · exact absurd (by rw [← e1, e]; exact List.mem_map_of_mem hb') h.1
      · exact absurd (by rw [← e2, ← e]; exact List.mem_map_of_mem ha') h.1
      · exact ih h.2 ha' hb'
  exact ⟨inj h.1, inj h.2.1, fun a b ha hb => h.2.2 _ (List.mem_map_of_mem ha) _ (List.mem_map_of_mem hb)⟩

/-- C156.  A port belongs to one link: what is sent on it has one destination and one
latency. -/
theorem C156_one_destination (m : Sys) (hp : Paired m) (ha : Attached m) (hu : OnePort m)
    (x y y' : Slot) (lat lat' : Nat) (h : Carries m x y lat) (h' : Carries m x y' lat') :
    y = y' ∧ lat = lat' := by
  rw [C156_carries m hp ha] at h h'
  have sw := fun s hs => nodup_append_map (hu.switch s hs)
  cases h with
  | @payload s k l1 h1 h2 =>
    generalize hx : (⟨.switch s, .out, k.srcPort⟩ : Slot) = x at h'
    cases h' <;> simp only [Slot.mk.injEq, Comp.switch.injEq, reduceCtorEq, false_and, and_false, true_and] at hx
    · obtain ⟨rfl, e⟩ := hx
      rename_i k' _ _ h3
      rw [(sw _ h1).1 k k' h2 h3 e]; exact ⟨rfl, rfl⟩
    · obtain ⟨rfl, e⟩ := hx
      rename_i h3
      exact absurd e ((sw _ h1).2.2 _ _ h2 h3)
  | @credit s k l1 h1 h2 =>
    generalize hx : (⟨.switch k.dst, .inp, k.dstPort⟩ : Slot) = x at h'
    cases h' <;> simp only [Slot.mk.injEq, Comp.switch.injEq, reduceCtorEq, false_and, and_false, true_and] at hx
    · rename_i s' k' _ h3 h4
      have r := (hp s k h1 h2)
      have r' := (hp s' k' h3 h4)
      have := (sw _ r.1).1 _ _ r.2 (hx.1 ▸ r'.2) hx.2
      simp only [Conn.mk.injEq] at this
      obtain ⟨-, rfl, e⟩ := this
      rw [e]; exact ⟨rfl, rfl⟩
    · rename_i s' p _ h3 h4
      have r := (hp s k h1 h2)
      exact absurd hx.2 ((sw _ r.1).2.2 _ _ r.2 (hx.1 ▸ h4))
  | @inject s p l1 h1 h2 =>
    generalize hx : (⟨.node p.nid, .out, p.epPort⟩ : Slot) = x at h'
    cases h' <;> simp only [Slot.mk.injEq, Comp.node.injEq, reduceCtorEq, false_and, and_false, true_and] at hx
    · rename_i s' p' _ h3 h4
      have e : s' = s := by rw [← (ha.node s p h1 h2).2, ← (ha.node s' p' h3 h4).2, hx.1]
      subst e
      rw [hu.node _ p p' h1 h2 h4 hx.1 hx.2]; exact ⟨rfl, rfl⟩
    · exact absurd hx.2 (hu.logp s p h1 h2)
  | @injectCredit s p l1 h1 h2 =>
    generalize hx : (⟨.switch s, .inp, p.swPort⟩ : Slot) = x at h'
    cases h' <;> simp only [Slot.mk.injEq, Comp.switch.injEq, reduceCtorEq, false_and, and_false, true_and] at hx
    · rename_i s' k' _ h3 h4
      have r := (hp s' k' h3 h4)
      exact absurd hx.2.symm ((sw _ r.1).2.2 _ _ r.2 (hx.1 ▸ h2))
    · rename_i s' p' _ h3 h4
      obtain ⟨rfl, e⟩ := hx
      rw [(sw _ h1).2.1 p p' h2 h4 e]; exact ⟨rfl, rfl⟩
  | @eject s p l1 h1 h2 =>
    generalize hx : (⟨.switch s, .out, p.swPort⟩ : Slot) = x at h'
    cases h' <;> simp only [Slot.mk.injEq, Comp.switch.injEq, reduceCtorEq, false_and, and_false, true_and] at hx
    · obtain ⟨rfl, e⟩ := hx
      rename_i h3
      exact absurd e.symm ((sw _ h1).2.2 _ _ h3 h2)
    · obtain ⟨rfl, e⟩ := hx
      rename_i p' _ _ h3
      rw [(sw _ h1).2.1 p p' h2 h3 e]; exact ⟨rfl, rfl⟩
  | @ejectCredit s p l1 h1 h2 =>
    generalize hx : (⟨.node p.nid, .inp, p.epPort⟩ : Slot) = x at h'
    cases h' <;> simp only [Slot.mk.injEq, Comp.node.injEq, reduceCtorEq, false_and, and_false, true_and] at hx
    · rename_i s' p' _ h3 h4
      have e : s' = s := by rw [← (ha.node s p h1 h2).2, ← (ha.node s' p' h3 h4).2, hx.1]
      subst e
      rw [hu.node _ p p' h1 h2 h4 hx.1 hx.2]; exact ⟨rfl, rfl⟩
    · exact absurd hx.2 (hu.logp s p h1 h2)
  | @toLogp i hi =>
    generalize hx : (⟨.node i, .out, 1⟩ : Slot) = x at h'
    cases h' <;> simp only [Slot.mk.injEq, Comp.node.injEq, reduceCtorEq, false_and, and_false, and_true, true_and] at hx
    · rename_i s' p' _ h3 h4
      exact absurd hx.2.symm (hu.logp _ _ h3 h4)
    · rw [hx]; exact ⟨rfl, rfl⟩
  | @toLogpBack i hi =>
    generalize hx : (⟨.logp, .inp, i⟩ : Slot) = x at h'
    cases h' <;> simp only [Slot.mk.injEq, reduceCtorEq, false_and, and_false, and_true, true_and] at hx
    rw [hx]; exact ⟨rfl, rfl⟩
  | @fromLogp i hi =>
    generalize hx : (⟨.logp, .out, i⟩ : Slot) = x at h'
    cases h' <;> simp only [Slot.mk.injEq, reduceCtorEq, false_and, and_false, and_true, true_and] at hx
    rw [hx]; exact ⟨rfl, rfl⟩
  | @fromLogpBack i hi =>
    generalize hx : (⟨.node i, .inp, 1⟩ : Slot) = x at h'
    cases h' <;> simp only [Slot.mk.injEq, Comp.node.injEq, reduceCtorEq, false_and, and_false, and_true, true_and] at hx
    · rename_i s' p' _ h3 h4
      exact absurd hx.2.symm (hu.logp _ _ h3 h4)
    · rw [hx]; exact ⟨rfl, rfl⟩

/-- C156.  Every link of the machine wired without SST core has its counterpart, from the
same port to the same port.  The latency is the same between switches and from nodes to
switches with the credits of both, and from the LogP switch to nodes; out of switches to
nodes it is the latency of injection, and it is 1 ps for the credits of these and for what
goes to the LogP switch. -/
theorem C156_same_machine_partial (m : Sys) (hp : Paired m) (ha : Attached m) (f : Sender)
    (t : Recv) (w w' : Worker) (lat : Nat) (h : Wire m.cfg f w t w' lat) :
    ∃ y lat', RecvPort t y ∧ Carries m (sendPort f) y lat' ∧
      lat' = (match f, t with
        | .switchOut _ _, .nodePayload _ _ => m.cfg.injLat
        | .nodeIn _ _, .switchCredit _ _ => 1
        | .nicLogp _, .logpIn _ => 1
        | _, _ => lat) := by
  simp only [C156_carries m hp ha]
  cases h with
  | toLogp h1 h2 => exact ⟨_, _, ⟨rfl, rfl⟩, .toLogp (ha.node _ _ h1 h2).1, rfl⟩
  | fromLogp h1 h2 h3 h4 => exact ⟨_, _, rfl, .fromLogp (ha.node _ _ h1 h2).1, rfl⟩
  | payload h1 h2 h3 => exact ⟨_, _, rfl, .payload h1 h2 h3, rfl⟩
  | credit h1 h2 h3 => exact ⟨_, _, rfl, .credit h1 h2 h3, rfl⟩
  | inject h1 h2 h3 => exact ⟨_, _, rfl, .inject h1 h2 h3, rfl⟩
  | injectCredit h1 h2 h3 => exact ⟨_, _, rfl, .injectCredit h1 h2 h3, rfl⟩
  | eject h1 h2 h3 => exact ⟨_, _, rfl, .eject h1 h2 h3, rfl⟩
  | ejectCredit h1 h2 h3 => exact ⟨_, _, rfl, .ejectCredit h1 h2 h3, rfl⟩

/-- C156.  And it has nothing else: whatever goes between switches and nodes under SST core
goes there without it. -/
theorem C156_nothing_else (m : Sys) (hp : Paired m) (ha : Attached m) (x y : Slot) (lat : Nat)
    (h : Carries m x y lat) (hx : x.comp ≠ .logp) (hy : y.comp ≠ .logp) :
    ∃ f t w w' lat', sendPort f = x ∧ RecvPort t y ∧ Wire m.cfg f w t w' lat' := by
  rw [C156_carries m hp ha] at h
  cases h with
  | payload h1 h2 h3 => refine ⟨_, _, _, _, _, ?_, ?_, .payload h1 h2 h3⟩ <;> rfl
  | credit h1 h2 h3 => refine ⟨_, _, _, _, _, ?_, ?_, .credit h1 h2 h3⟩ <;> rfl
  | inject h1 h2 h3 => refine ⟨_, _, _, _, _, ?_, ?_, .inject h1 h2 h3⟩ <;> rfl
  | injectCredit h1 h2 h3 => refine ⟨_, _, _, _, _, ?_, ?_, .injectCredit h1 h2 h3⟩ <;> rfl
  | eject h1 h2 h3 => refine ⟨_, _, _, _, _, ?_, ?_, .eject h1 h2 h3⟩ <;> rfl
  | ejectCredit h1 h2 h3 => refine ⟨_, _, _, _, _, ?_, ?_, .ejectCredit h1 h2 h3⟩ <;> rfl
  | toLogp _ => exact absurd rfl hy
  | toLogpBack _ => exact absurd rfl hx
  | fromLogp _ => exact absurd rfl hx
  | fromLogpBack _ => exact absurd rfl hy

/-! ### A machine -/

/-- Two switches with a cable between their ports 0 and 1 and a node on port 2 of each. -/
def pair (ep : Nat) : Sys :=
  ⟨⟨1, 1, 2, fun _ => 0, fun _ => 0, fun s => [⟨s, 2, ep⟩],
    fun s => if s = 0 then [⟨0, 1, 1⟩] else [⟨1, 0, 0⟩], false, 50, 100, 200, 300⟩, 2, id⟩

theorem pair_paired (ep : Nat) : Paired (pair ep) := by
  intro s k hs hk
  have hs : s = 0 ∨ s = 1 := by simp only [pair] at hs; omega
  rcases hs with rfl | rfl <;> simp [pair] at hk ⊢ <;> subst hk <;> simp

theorem pair_attached (ep : Nat) : Attached (pair ep) where
  node := by
    intro s p hs h
    simp [pair] at h hs ⊢
    subst h
    exact ⟨hs, rfl⟩
  switch := by intro n hn; simpa [pair] using hn

theorem pair_one (ep : Nat) (h : ep ≠ 1) : OnePort (pair ep) where
  switch := by
    intro s hs
    have hs : s = 0 ∨ s = 1 := by simp only [pair] at hs; omega
    rcases hs with rfl | rfl <;> simp [pair]
  node := by
    intro s p q hs hp hq _ _
    simp [pair] at hp hq
    rw [hp, hq]
  logp := by
    intro s p hs hp
    simp [pair] at hp
    rw [hp]
    exact h

example : started (pair 0) = true := C156_started _ (pair_paired 0) (pair_attached 0)

example : Carries (pair 0) ⟨.switch 0, .out, 0⟩ ⟨.switch 1, .inp, 1⟩ 100 :=
  (C156_carries _ (pair_paired 0) (pair_attached 0) _ _ _).2
    (.payload (m := pair 0) (s := 0) (k := ⟨0, 1, 1⟩) rfl (by decide) (by decide))

example : ((build (pair 0)).map (·.name)).Nodup :=
  C156_names _ (by intro s _; by_cases h : s = 0 <;> simp [pair, h])

example : (build (pair 0)).length = 10 := by decide

example (y : Slot) (lat : Nat) (h : Carries (pair 0) ⟨.node 1, .out, 0⟩ y lat) :
    y = ⟨.switch 1, .inp, 2⟩ ∧ lat = 200 :=
  C156_one_destination _ (pair_paired 0) (pair_attached 0) (pair_one 0 (by decide)) _ _ _ _ _ h
    ((C156_carries _ (pair_paired 0) (pair_attached 0) _ _ _).2
      (.inject (m := pair 0) (s := 1) (p := ⟨1, 2, 0⟩) rfl (by decide) (by decide)))

/-- C156, refuted part.  A node whose only network port has the number 1, as a topology read
from a file may give it, shares the port of the LogP network: one port, two destinations. -/
theorem C156_shared_port_refuted : ¬ ∀ m : Sys, Paired m → Attached m → Once m →
    ∀ x y y' lat lat', Carries m x y lat → Carries m x y' lat' → y = y' := by
  intro h
  have hp := pair_paired 1
  have ha := pair_attached 1
  have := h (pair 1) hp ha (by intro s _; by_cases e : s = 0 <;> simp [pair, e])
    ⟨.node 0, .out, 1⟩ ⟨.switch 0, .inp, 2⟩ ⟨.logp, .inp, 0⟩ 200 1
    ((C156_carries _ hp ha _ _ _).2 (.inject (m := pair 1) (s := 0) (p := ⟨0, 2, 1⟩) rfl (by decide) (by decide)))
    ((C156_carries _ hp ha _ _ _).2 (.toLogp (m := pair 1) (by decide)))
  simp at this

/-- Two switches with one link each way, every end on a port number of its own. -/
def oneWay : Sys :=
  ⟨⟨1, 1, 2, fun _ => 0, fun _ => 0, fun s => [⟨s, 4, 0⟩],
    fun s => if s = 0 then [⟨0, 1, 1⟩] else [⟨2, 0, 3⟩], false, 50, 100, 200, 300⟩, 2, id⟩

/-- C156, refuted part.  A topology with cables in one direction, which the simulator wires
without SST core, does not start under it: the switches look for inputs on the numbers of
their outputs. -/
theorem C156_one_way_refuted : ¬ ∀ m : Sys, Attached m → m.cfg.Ok → OnePort m → started m = true := by
  intro h
  have ha : Attached oneWay := by
    constructor
    · intro s p hs h
      simp [oneWay] at h hs ⊢
      subst h
      exact ⟨hs, rfl⟩
    · intro n hn; simpa [oneWay] using hn
  have hok : oneWay.cfg.Ok := by
    constructor
    · intro s _; simp [oneWay]
    · intro s _; simp [oneWay]
    · intro s k hs hk
      have hs : s = 0 ∨ s = 1 := by simp only [oneWay] at hs; omega
      rcases hs with rfl | rfl <;> simp [oneWay] at hk ⊢ <;> subst hk <;> simp
  have hu : OnePort oneWay := by
    constructor
    · intro s hs
      have hs : s = 0 ∨ s = 1 := by simp only [oneWay] at hs; omega
      rcases hs with rfl | rfl <;> simp [oneWay]
    · intro s p q hs hp hq _ _
      simp [oneWay] at hp hq
      rw [hp, hq]
    · intro s p hs hp
      simp [oneWay] at hp
      rw [hp]
      simp
  have := h oneWay ha hok hu
  rw [C156_started_iff _ ha rfl] at this
  rcases this 0 ⟨0, 1, 1⟩ (by decide) (by decide) with ⟨s', k', a, b, c, d⟩ | ⟨p, a, b⟩
  · have hs : s' = 0 ∨ s' = 1 := by simp only [oneWay] at a; omega
    rcases hs with rfl | rfl <;> simp [oneWay] at b <;> subst b <;> simp at c d
  · simp [oneWay] at a
    subst a
    simp at b

/-- C156, refuted part.  The latencies are not those of the machine without SST core: a
packet leaves the last switch after the latency of injection, whatever is configured for
ejection, and its credit returns after 1 ps. -/
theorem C156_latency_refuted : ¬ ∀ m : Sys, Paired m → Attached m → OnePort m →
    ∀ f t w w' lat y lat', Wire m.cfg f w t w' lat → RecvPort t y →
      Carries m (sendPort f) y lat' → lat' = lat := by
  intro h
  have hp := pair_paired 0
  have ha := pair_attached 0
  have := h (pair 0) hp ha (pair_one 0 (by decide)) (.switchOut 0 2) (.nodePayload 0 0) _ _ 300
    ⟨.node 0, .inp, 0⟩ 200
    (.eject (c := (pair 0).cfg) (s := 0) (p := ⟨0, 2, 0⟩) rfl (by decide) (by decide)) rfl
    ((C156_carries _ hp ha _ _ _).2 (.eject (m := pair 0) (s := 0) (p := ⟨0, 2, 0⟩) rfl (by decide) (by decide)))
  omega

end SST.Parallel.CoreLinks
