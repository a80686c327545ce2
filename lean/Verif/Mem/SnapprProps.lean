import Verif.Mem.Snappr
set_option autoImplicit false
/-
Memory with channels: every access is answered exactly once, after all its bytes, and a channel
never serves two accesses at once.
-/
namespace SST.Mem.Snappr

/-- The event belongs to the flow. -/
def own (id : Nat) (p : Nat × Ev) : Bool :=
  match p.2 with
  | .issue i _ => i = id
  | .resp i _ => i = id
  | .call i => i = id
  | .reply _ _ => false

/-- What is scheduled for a flow. -/
def evsOf (s : St) (id : Nat) : List (Nat × Ev) := s.evs.filter (own id)

/-- The uses of channels by a flow. -/
def usesOf (s : St) (id : Nat) : List Use := s.log.filter fun u => u.owner = some id

/-- The runs of the callback of a flow. -/
def doneOf (s : St) (id : Nat) : List (Nat × Nat) := s.done.filter fun d => d.2 = id

/-- The bytes moved for a flow. -/
def moved (s : St) (id : Nat) : Nat := ((usesOf s id).map (·.bytes)).sum

/-- The phases of a flow of `total` bytes. -/
inductive Phase (c : Cfg) (s : St) (id total : Nat) : Prop where
  | issue (t b : Nat) (f : Flow) (hf : s.flows id = some f) (he : evsOf s id = [(t, .issue id b)]) (hd : doneOf s id = [])
      (hm : moved s id + b + f.left = total) (hdvd : c.mtu ∣ f.left) (hb : b ≤ c.mtu)
      (hu : ∀ u ∈ usesOf s id, b = c.mtu ∧ u.start ≤ t ∧ u.bytes ≤ c.mtu)
  | resp (t b : Nat) (f : Flow) (hf : s.flows id = some f) (he : evsOf s id = [(t, .resp id b)]) (hd : doneOf s id = [])
      (hm : moved s id + f.left = total) (hdvd : c.mtu ∣ f.left)
      (hu : ∀ u ∈ usesOf s id, u.start ≤ t ∧ u.bytes ≤ c.mtu ∧ u.start + c.byteDelay * u.bytes ≤ t + c.byteDelay * b)
  | call (t : Nat) (hf : s.flows id = none) (he : evsOf s id = [(t, .call id)]) (hd : doneOf s id = [])
      (hm : moved s id = total) (hu : ∀ u ∈ usesOf s id, u.start + c.byteDelay * u.bytes ≤ t)
  | done (t : Nat) (hf : s.flows id = none) (he : evsOf s id = []) (hd : doneOf s id = [(t, id)])
      (hm : moved s id = total) (hu : ∀ u ∈ usesOf s id, u.start + c.byteDelay * u.bytes ≤ t)

theorem Phase.congr {c : Cfg} {s s' : St} {id total : Nat} (h : Phase c s id total) (h1 : s'.flows id = s.flows id)
    (h2 : evsOf s' id = evsOf s id) (h3 : usesOf s' id = usesOf s id) (h4 : doneOf s' id = doneOf s id) :
    Phase c s' id total := by
  have h5 : moved s' id = moved s id := by rw [moved, moved, h3]
  cases h with
  | issue t b f hf he hd hm hdvd hb hu => exact .issue t b f (h1 ▸ hf) (h2 ▸ he) (h4 ▸ hd) (h5 ▸ hm) hdvd hb (h3 ▸ hu)
  | resp t b f hf he hd hm hdvd hu => exact .resp t b f (h1 ▸ hf) (h2 ▸ he) (h4 ▸ hd) (h5 ▸ hm) hdvd (h3 ▸ hu)
  | call t hf he hd hm hu => exact .call t (h1 ▸ hf) (h2 ▸ he) (h4 ▸ hd) (h5 ▸ hm) (h3 ▸ hu)
  | done t hf he hd hm hu => exact .done t (h1 ▸ hf) (h2 ▸ he) (h4 ▸ hd) (h5 ▸ hm) (h3 ▸ hu)

/-- What always holds. -/
structure Inv (c : Cfg) (s : St) : Prop where
  ids : s.calls.map (·.1) = (List.range s.nextId).reverse
  phase : ∀ p ∈ s.calls, Phase c s p.1 p.2
  fresh : ∀ id, s.nextId ≤ id → s.flows id = none ∧ evsOf s id = [] ∧ usesOf s id = [] ∧ doneOf s id = []
  reqs : s.asked.Perm (s.replies.map (·.2) ++ s.evs.filterMap fun p => match p.2 with | .reply r _ => some r | _ => none)
  chans : s.log.Pairwise fun u v => u.chan = v.chan → v.start + c.byteDelay * v.bytes ≤ u.start
  free : ∀ u ∈ s.log, u.start + c.byteDelay * u.bytes ≤ s.free u.chan

theorem Inv.init (c : Cfg) : Inv c St.init :=
  ⟨rfl, by simp [St.init], fun _ _ => ⟨rfl, rfl, rfl, rfl⟩, .refl _, .nil, by simp [St.init]⟩

theorem Inv.known {c : Cfg} {s : St} (h : Inv c s) {id : Nat} (hi : id < s.nextId) : ∃ total, (id, total) ∈ s.calls := by
  have : id ∈ s.calls.map (·.1) := by rw [h.ids]; simpa using hi
  obtain ⟨p, hp, e⟩ := List.mem_map.1 this
  exact ⟨p.2, by rw [← e]; exact hp⟩

theorem Inv.known_lt {c : Cfg} {s : St} (h : Inv c s) {id total : Nat} (hi : (id, total) ∈ s.calls) : id < s.nextId := by
  have : id ∈ s.calls.map (·.1) := List.mem_map_of_mem (f := (·.1)) hi
  rw [h.ids] at this
  simpa using this

theorem put_same {α : Type} (f : Nat → α) (i : Nat) (x : α) : put f i x i = x := if_pos rfl

theorem put_other {α : Type} (f : Nat → α) (i j : Nat) (x : α) (h : j ≠ i) : put f i x j = f j := if_neg h

theorem first_piece (c : Cfg) (bytes : Nat) (hm : 0 < c.mtu) (hb : bytes ≠ 0) (b : Nat)
    (hb' : b = if bytes % c.mtu = 0 then c.mtu else bytes % c.mtu) :
    0 < b ∧ b ≤ c.mtu ∧ b ≤ bytes ∧ c.mtu ∣ bytes - b := by
  have hlt := Nat.mod_lt bytes hm
  have hle := Nat.mod_le bytes c.mtu
  split at hb'
  · rename_i h0
    have hd := Nat.dvd_of_mod_eq_zero h0
    have := Nat.le_of_dvd (by omega) hd
    subst hb'
    exact ⟨hm, Nat.le_refl _, this, Nat.dvd_sub hd (Nat.dvd_refl _)⟩
  · subst hb'
    exact ⟨by omega, by omega, hle, Nat.dvd_sub_mod bytes⟩

theorem Inv.accessFlow {c : Cfg} {s : St} (hm : 0 < c.mtu) (h : Inv c s) (now bytes rd : Nat) :
    Inv c (accessFlow c now bytes rd s) := by
  obtain ⟨f1, f2, f3, f4⟩ := h.fresh s.nextId (Nat.le_refl _)
  unfold Snappr.accessFlow
  split
  · rename_i hb
    have hev : ∀ id, evsOf { s with nextId := s.nextId + 1, calls := (s.nextId, bytes) :: s.calls, evs := s.evs ++ [(now, .call s.nextId)] } id =
        evsOf s id ++ if s.nextId = id then [(now, .call s.nextId)] else [] := by
      intro id
      simp only [evsOf, List.filter_append, List.filter_cons, List.filter_nil, own, decide_eq_true_eq]
    refine ⟨?_, ?_, ?_, ?_, h.chans, h.free⟩
    · simp [List.range_succ, h.ids]
    · intro p hp
      rcases List.mem_cons.1 hp with rfl | hp
      · refine .call now f1 ?_ f4 ?_ ?_
        · rw [hev, f2, if_pos rfl]; rfl
        · show moved s s.nextId = bytes
          rw [moved, f3, hb]; rfl
        · show ∀ u ∈ usesOf s s.nextId, _
          rw [f3]; simp
      · have := h.known_lt hp
        refine (h.phase p hp).congr rfl ?_ rfl rfl
        rw [hev, if_neg (by omega), List.append_nil]
    · intro id hid
      have hid : s.nextId + 1 ≤ id := hid
      obtain ⟨g1, g2, g3, g4⟩ := h.fresh id (by omega)
      exact ⟨g1, by rw [hev, g2, if_neg (by omega)]; rfl, g3, g4⟩
    · simpa [List.filterMap_append] using h.reqs
  · rename_i hb
    obtain ⟨b0, b1, b2, b3⟩ := first_piece c bytes hm hb _ rfl
    revert b0 b1 b2 b3
    generalize (if bytes % c.mtu = 0 then c.mtu else bytes % c.mtu) = b
    intro b0 b1 b2 b3
    dsimp only
    have hev : ∀ id, evsOf { s with nextId := s.nextId + 1, calls := (s.nextId, bytes) :: s.calls, evs := s.evs ++ [(now + rd * b, .issue s.nextId b)], flows := put s.flows s.nextId (some ⟨bytes - b, rd⟩) } id =
        evsOf s id ++ if s.nextId = id then [(now + rd * b, .issue s.nextId b)] else [] := by
      intro id
      simp only [evsOf, List.filter_append, List.filter_cons, List.filter_nil, own, decide_eq_true_eq]
    refine ⟨?_, ?_, ?_, ?_, h.chans, h.free⟩
    · simp [List.range_succ, h.ids]
    · intro p hp
      rcases List.mem_cons.1 hp with rfl | hp
      · refine .issue _ b _ (put_same _ _ _) (by rw [hev, f2, if_pos rfl]; rfl) f4 ?_ b3 b1 ?_
        · show moved s s.nextId + b + (bytes - b) = bytes
          rw [moved, f3]
          simp only [List.map_nil, List.sum_nil]; omega
        · show ∀ u ∈ usesOf s s.nextId, _
          rw [f3]; simp
      · have := h.known_lt hp
        refine (h.phase p hp).congr (put_other _ _ _ _ (by omega)) ?_ rfl rfl
        rw [hev, if_neg (by omega), List.append_nil]
    · intro id hid
      have hid : s.nextId + 1 ≤ id := hid
      obtain ⟨g1, g2, g3, g4⟩ := h.fresh id (by omega)
      exact ⟨(put_other _ _ _ _ (by omega)).trans g1, by rw [hev, g2, if_neg (by omega)]; rfl, g3, g4⟩
    · simpa [List.filterMap_append] using h.reqs

theorem chans_access {c : Cfg} {s : St} (h1 : s.log.Pairwise fun u v => u.chan = v.chan → v.start + c.byteDelay * v.bytes ≤ u.start)
    (h2 : ∀ u ∈ s.log, u.start + c.byteDelay * u.bytes ≤ s.free u.chan) (now : Nat) (o : Option Nat) (ev : Ev) (bytes : Nat) :
    ((access c now o ev bytes s).log.Pairwise fun u v => u.chan = v.chan → v.start + c.byteDelay * v.bytes ≤ u.start) ∧
    ∀ u ∈ (access c now o ev bytes s).log, u.start + c.byteDelay * u.bytes ≤ (access c now o ev bytes s).free u.chan := by
  simp only [access]
  refine ⟨List.pairwise_cons.2 ⟨?_, h1⟩, ?_⟩
  · intro v hv e
    have := h2 v hv
    rw [← e] at this
    exact Nat.le_trans this (Nat.le_max_left _ _)
  · intro u hu
    rcases List.mem_cons.1 hu with rfl | hu
    · rw [put_same]; exact Nat.le_refl _
    · by_cases e : u.chan = s.interleaver
      · rw [e, put_same]
        have := h2 u hu
        rw [e] at this
        have := Nat.le_max_left (s.free s.interleaver) now
        omega
      · rw [put_other _ _ _ _ e]; exact h2 u hu

theorem Inv.request {c : Cfg} {s : St} (h : Inv c s) (now req bytes : Nat) : Inv c (request c now req bytes s) := by
  have hc := chans_access h.chans h.free now none (.reply req bytes) bytes
  have hev : ∀ id, evsOf (Snappr.request c now req bytes s) id = evsOf s id := by
    intro id
    simp only [evsOf, Snappr.request, access, List.filter_append, List.filter_cons, List.filter_nil, own]
    simp
  have hus : ∀ id, usesOf (Snappr.request c now req bytes s) id = usesOf s id := by
    intro id
    simp [usesOf, Snappr.request, access]
  refine ⟨h.ids, ?_, ?_, ?_, hc.1, hc.2⟩
  · intro p hp
    exact (h.phase p hp).congr rfl (hev _) (hus _) rfl
  · intro id hid
    obtain ⟨g1, g2, g3, g4⟩ := h.fresh id hid
    exact ⟨g1, by rw [hev, g2], by rw [hus, g3], g4⟩
  · simp only [Snappr.request, access, List.filterMap_append, List.filterMap_cons, List.filterMap_nil]
    rw [← List.append_assoc]
    exact (h.reqs.cons req).trans (List.perm_append_comm (l₁ := [req]))

/-- Taking out the only event of a flow. -/
theorem evs_split {pre post : List (Nat × Ev)} {p x : Nat × Ev} {id : Nat} (hp : own id p = true)
    (h : (pre ++ p :: post).filter (own id) = [x]) : p = x ∧ (pre ++ post).filter (own id) = [] := by
  rw [List.filter_append, List.filter_cons, if_pos hp] at h
  cases hpre : pre.filter (own id) with
  | nil =>
    rw [hpre] at h
    simp only [List.nil_append, List.cons.injEq] at h
    refine ⟨h.1, ?_⟩
    rw [List.filter_append, hpre, h.2]; rfl
  | cons a l =>
    rw [hpre] at h
    simp only [List.cons_append, List.cons.injEq] at h
    have := h.2
    cases l <;> simp at this

theorem evs_other {pre post : List (Nat × Ev)} {p : Nat × Ev} {id : Nat} (hp : own id p = false) :
    (pre ++ p :: post).filter (own id) = (pre ++ post).filter (own id) := by
  rw [List.filter_append, List.filter_append, List.filter_cons, hp]; rfl

theorem ev_known {c : Cfg} {s : St} (h : Inv c s) {p : Nat × Ev} (hp : p ∈ s.evs) {id : Nat} (ho : own id p = true) :
    ∃ total, (id, total) ∈ s.calls ∧ Phase c s id total := by
  by_cases hi : id < s.nextId
  · obtain ⟨total, ht⟩ := h.known hi
    exact ⟨total, ht, h.phase _ ht⟩
  · have := (h.fresh id (by omega)).2.1
    have hm : p ∈ evsOf s id := List.mem_filter.2 ⟨hp, ho⟩
    rw [this] at hm; simp at hm

theorem reqs_other {pre post : List (Nat × Ev)} {t : Nat} {e : Ev} (he : ∀ r b, e ≠ .reply r b) :
    ((pre ++ (t, e) :: post).filterMap fun p => match p.2 with | .reply r _ => some r | _ => none) =
    ((pre ++ post).filterMap fun p => match p.2 with | .reply r _ => some r | _ => none) := by
  rw [List.filterMap_append, List.filterMap_append, List.filterMap_cons]
  cases e with
  | reply r b => exact absurd rfl (he r b)
  | _ => rfl

theorem calls_unique (l : List (Nat × Nat)) (hn : (l.map (·.1)).Nodup) {p q : Nat × Nat} (h1 : p ∈ l) (h2 : q ∈ l)
    (he : p.1 = q.1) : p = q := by
  induction l with
  | nil => simp at h1
  | cons r l ih =>
    rw [List.map_cons, List.nodup_cons] at hn
    rcases List.mem_cons.1 h1 with rfl | h1
    · rcases List.mem_cons.1 h2 with h2 | h2
      · exact h2.symm
      · exact absurd (by rw [he]; exact List.mem_map_of_mem (f := (·.1)) h2) hn.1
    · rcases List.mem_cons.1 h2 with h2 | h2
      · exact absurd (by rw [← h2, ← he]; exact List.mem_map_of_mem (f := (·.1)) h1) hn.1
      · exact ih hn.2 h1 h2

theorem Inv.nodup {c : Cfg} {s : St} (h : Inv c s) : (s.calls.map (·.1)).Nodup := by
  rw [h.ids, List.Nodup, List.pairwise_reverse]
  exact List.nodup_range.imp fun a => Ne.symm a

/-- An event of one flow leaves the others alone. -/
theorem Inv.after {c : Cfg} {s s' : St} {flow total : Nat} (h : Inv c s) (hcall : (flow, total) ∈ s.calls)
    (hcalls : s'.calls = s.calls) (hn : s'.nextId = s.nextId) (hph : Phase c s' flow total)
    (hoth : ∀ id, id ≠ flow → s'.flows id = s.flows id ∧ evsOf s' id = evsOf s id ∧ usesOf s' id = usesOf s id ∧ doneOf s' id = doneOf s id)
    (hreqs : s'.asked.Perm (s'.replies.map (·.2) ++ s'.evs.filterMap fun p => match p.2 with | .reply r _ => some r | _ => none))
    (hch : s'.log.Pairwise fun u v => u.chan = v.chan → v.start + c.byteDelay * v.bytes ≤ u.start)
    (hfree : ∀ u ∈ s'.log, u.start + c.byteDelay * u.bytes ≤ s'.free u.chan) : Inv c s' := by
  refine ⟨by rw [hcalls, hn, h.ids], ?_, ?_, hreqs, hch, hfree⟩
  · intro p hp
    rw [hcalls] at hp
    by_cases hpf : p.1 = flow
    · have := calls_unique s.calls h.nodup hp hcall hpf
      rw [this]; exact hph
    · obtain ⟨o1, o2, o3, o4⟩ := hoth _ hpf
      exact (h.phase p hp).congr o1 o2 o3 o4
  · intro id hid
    have hlt := h.known_lt hcall
    rw [hn] at hid
    obtain ⟨g1, g2, g3, g4⟩ := h.fresh id hid
    obtain ⟨o1, o2, o3, o4⟩ := hoth id (by omega)
    exact ⟨o1.trans g1, o2.trans g2, o3.trans g3, o4.trans g4⟩

theorem exec_spec {c : Cfg} {s : St} (h : Inv c s) (pre post : List (Nat × Ev)) (t : Nat) (e : Ev)
    (hs : s.evs = pre ++ (t, e) :: post) :
    ∃ s', exec c t { s with evs := pre ++ post } e = some s' ∧ Inv c s' := by
  have hmem : (t, e) ∈ s.evs := by rw [hs]; simp
  have hevs : ∀ id, evsOf s id = (pre ++ (t, e) :: post).filter (own id) := fun id => by rw [evsOf, hs]
  have hreqs := h.reqs
  rw [hs] at hreqs
  have hother : ∀ id, own id (t, e) = false → evsOf s id = (pre ++ post).filter (own id) := fun id ho => by
    rw [hevs, evs_other ho]
  have hsing : ∀ flow x, own flow (t, e) = true → evsOf s flow = [x] → (t, e) = x ∧ (pre ++ post).filter (own flow) = [] := by
    intro flow x ho hx
    rw [hevs] at hx
    exact evs_split ho hx
  have hnone : ∀ flow, own flow (t, e) = true → evsOf s flow ≠ [] := by
    intro flow ho he
    have : (t, e) ∈ evsOf s flow := List.mem_filter.2 ⟨hmem, ho⟩
    rw [he] at this; simp at this
  cases e with
  | issue flow b =>
    have ho : own flow (t, .issue flow b) = true := by simp [own]
    obtain ⟨total, hcall, hph⟩ := ev_known h hmem ho
    have hph' : ∃ f, s.flows flow = some f ∧ (pre ++ post).filter (own flow) = [] ∧ doneOf s flow = [] ∧
        moved s flow + b + f.left = total ∧ c.mtu ∣ f.left ∧ b ≤ c.mtu ∧
        ∀ u ∈ usesOf s flow, b = c.mtu ∧ u.start ≤ t ∧ u.bytes ≤ c.mtu := by
      cases hph with
      | issue t' b' f hf he hd hm hdvd hb hu =>
        obtain ⟨e1, e2⟩ := hsing _ _ ho he
        injection e1 with e1 e3
        injection e3 with _ e3
        subst e1; subst e3
        exact ⟨f, hf, e2, hd, hm, hdvd, hb, hu⟩
      | resp t' b' f hf he => exact absurd (hsing _ _ ho he).1 (by simp)
      | call t' hf he => exact absurd (hsing _ _ ho he).1 (by simp)
      | done t' hf he => exact absurd he (hnone _ ho)
    obtain ⟨f, hf, he, hd, hm, hdvd, hb, hu⟩ := hph'
    refine ⟨_, rfl, ?_⟩
    have hc := chans_access (s := { s with evs := pre ++ post }) h.chans h.free t (some flow) (.resp flow b) b
    have hev : ∀ id, evsOf (access c t (some flow) (.resp flow b) b { s with evs := pre ++ post }) id =
        (pre ++ post).filter (own id) ++ if flow = id then [(max (s.free s.interleaver) t, .resp flow b)] else [] := by
      intro id
      simp only [evsOf, access]
      rw [List.filter_append (l₁ := pre ++ post), List.filter_cons, List.filter_nil]
      simp only [own, decide_eq_true_eq]
    have hus : usesOf (access c t (some flow) (.resp flow b) b { s with evs := pre ++ post }) flow =
        ⟨s.interleaver, some flow, max (s.free s.interleaver) t, b⟩ :: usesOf s flow := by
      simp [usesOf, access]
    have hmax := Nat.le_max_right (s.free s.interleaver) t
    refine h.after hcall rfl rfl ?_ ?_ ?_ hc.1 hc.2
    · refine .resp _ b f hf (by rw [hev, he, if_pos rfl]; rfl) hd ?_ hdvd ?_
      · rw [moved, hus, List.map_cons, List.sum_cons]
        show b + moved s flow + f.left = total
        omega
      · rw [hus]
        intro u hu'
        rcases List.mem_cons.1 hu' with rfl | hu'
        · exact ⟨Nat.le_refl _, hb, Nat.le_refl _⟩
        · obtain ⟨u1, u2, u3⟩ := hu u hu'
          refine ⟨by omega, u3, ?_⟩
          rw [u1]
          have := Nat.mul_le_mul_left c.byteDelay u3
          omega
    · intro id hne
      refine ⟨rfl, ?_, ?_, rfl⟩
      · rw [hev, if_neg (Ne.symm hne), List.append_nil, hother]
        simpa [own] using Ne.symm hne
      · simp [usesOf, access, Ne.symm hne]
    · rw [reqs_other (by simp)] at hreqs
      simpa [access, List.filterMap_append] using hreqs
  | resp flow b =>
    have ho : own flow (t, .resp flow b) = true := by simp [own]
    obtain ⟨total, hcall, hph⟩ := ev_known h hmem ho
    have hph' : ∃ f, s.flows flow = some f ∧ (pre ++ post).filter (own flow) = [] ∧ doneOf s flow = [] ∧
        moved s flow + f.left = total ∧ c.mtu ∣ f.left ∧
        ∀ u ∈ usesOf s flow, u.start ≤ t ∧ u.bytes ≤ c.mtu ∧ u.start + c.byteDelay * u.bytes ≤ t + c.byteDelay * b := by
      cases hph with
      | resp t' b' f hf he hd hm hdvd hu =>
        obtain ⟨e1, e2⟩ := hsing _ _ ho he
        injection e1 with e1 e3
        injection e3 with _ e3
        subst e1; subst e3
        exact ⟨f, hf, e2, hd, hm, hdvd, hu⟩
      | issue t' b' f hf he => exact absurd (hsing _ _ ho he).1 (by simp)
      | call t' hf he => exact absurd (hsing _ _ ho he).1 (by simp)
      | done t' hf he => exact absurd he (hnone _ ho)
    obtain ⟨f, hf, he, hd, hm, hdvd, hu⟩ := hph'
    by_cases hl : f.left = 0
    · refine ⟨{ s with evs := (pre ++ post) ++ [(t + b * c.byteDelay, .call flow)], flows := put s.flows flow none }, by
        simp only [exec, response, hf, hl, if_true], ?_⟩
      have hev : ∀ id, evsOf { s with evs := (pre ++ post) ++ [(t + b * c.byteDelay, .call flow)], flows := put s.flows flow none } id =
          (pre ++ post).filter (own id) ++ if flow = id then [(t + b * c.byteDelay, .call flow)] else [] := by
        intro id
        simp only [evsOf]
        rw [List.filter_append (l₁ := pre ++ post), List.filter_cons, List.filter_nil]
        simp only [own, decide_eq_true_eq]
      refine h.after hcall rfl rfl ?_ ?_ ?_ h.chans h.free
      · refine .call _ (put_same _ _ _) (by rw [hev, he, if_pos rfl]; rfl) hd ?_ ?_
        · show moved s flow = total
          omega
        · intro u hu'
          have := (hu u hu').2.2
          rw [Nat.mul_comm b]; exact this
      · intro id hne
        refine ⟨put_other _ _ _ _ hne, ?_, rfl, rfl⟩
        rw [hev, if_neg (Ne.symm hne), List.append_nil, hother]
        simpa [own] using Ne.symm hne
      · rw [reqs_other (by simp)] at hreqs
        simpa [List.filterMap_append] using hreqs
    · have hle : c.mtu ≤ f.left := Nat.le_of_dvd (by omega) hdvd
      refine ⟨{ s with evs := (pre ++ post) ++ [(t + c.mtu * f.requestDelay, .issue flow c.mtu)], flows := put s.flows flow (some { f with left := f.left - c.mtu }) }, by
        simp only [exec, response, hf, hl, if_false], ?_⟩
      have hev : ∀ id, evsOf { s with evs := (pre ++ post) ++ [(t + c.mtu * f.requestDelay, .issue flow c.mtu)], flows := put s.flows flow (some { f with left := f.left - c.mtu }) } id =
          (pre ++ post).filter (own id) ++ if flow = id then [(t + c.mtu * f.requestDelay, .issue flow c.mtu)] else [] := by
        intro id
        simp only [evsOf]
        rw [List.filter_append (l₁ := pre ++ post), List.filter_cons, List.filter_nil]
        simp only [own, decide_eq_true_eq]
      refine h.after hcall rfl rfl ?_ ?_ ?_ h.chans h.free
      · refine .issue _ c.mtu { f with left := f.left - c.mtu } (put_same _ _ _) (by rw [hev, he, if_pos rfl]; rfl) hd ?_
          (Nat.dvd_sub hdvd (Nat.dvd_refl _)) (Nat.le_refl _) ?_
        · show moved s flow + c.mtu + (f.left - c.mtu) = total
          omega
        · intro u hu'
          obtain ⟨u1, u2, _⟩ := hu u hu'
          exact ⟨rfl, Nat.le_trans u1 (Nat.le_add_right _ _), u2⟩
      · intro id hne
        refine ⟨put_other _ _ _ _ hne, ?_, rfl, rfl⟩
        rw [hev, if_neg (Ne.symm hne), List.append_nil, hother]
        simpa [own] using Ne.symm hne
      · rw [reqs_other (by simp)] at hreqs
        simpa [List.filterMap_append] using hreqs
  | reply r b =>
    refine ⟨_, rfl, ?_⟩
    have hev : ∀ id, evsOf { s with evs := pre ++ post, replies := (t, r) :: s.replies } id = evsOf s id := by
      intro id; exact (hother id rfl).symm
    refine ⟨h.ids, ?_, ?_, ?_, h.chans, h.free⟩
    · intro p hp
      exact (h.phase p hp).congr rfl (hev _) rfl rfl
    · intro id hid
      obtain ⟨g1, g2, g3, g4⟩ := h.fresh id hid
      exact ⟨g1, (hev id).trans g2, g3, g4⟩
    · refine hreqs.trans ?_
      simp only [List.filterMap_append, List.filterMap_cons, List.map_cons, List.cons_append]
      rw [← List.append_assoc, ← List.append_assoc]
      exact List.perm_middle
  | call flow =>
    have ho : own flow (t, .call flow) = true := by simp [own]
    obtain ⟨total, hcall, hph⟩ := ev_known h hmem ho
    have hph' : s.flows flow = none ∧ (pre ++ post).filter (own flow) = [] ∧ doneOf s flow = [] ∧
        moved s flow = total ∧ ∀ u ∈ usesOf s flow, u.start + c.byteDelay * u.bytes ≤ t := by
      cases hph with
      | call t' hf he hd hm hu =>
        obtain ⟨e1, e2⟩ := hsing _ _ ho he
        injection e1 with e1 e3
        subst e1
        exact ⟨hf, e2, hd, hm, hu⟩
      | issue t' b' f hf he => exact absurd (hsing _ _ ho he).1 (by simp)
      | resp t' b' f hf he => exact absurd (hsing _ _ ho he).1 (by simp)
      | done t' hf he => exact absurd he (hnone _ ho)
    obtain ⟨hf, he, hd, hm, hu⟩ := hph'
    refine ⟨_, rfl, ?_⟩
    have hd' : ∀ id, doneOf { s with evs := pre ++ post, done := (t, flow) :: s.done } id =
        (if flow = id then [(t, flow)] else []) ++ doneOf s id := by
      intro id
      simp only [doneOf, List.filter_cons, decide_eq_true_eq]
      split <;> rfl
    refine h.after hcall rfl rfl ?_ ?_ ?_ h.chans h.free
    · exact .done t hf he (by rw [hd', hd, if_pos rfl]; rfl) hm hu
    · intro id hne
      refine ⟨rfl, (hother id (by simpa [own] using Ne.symm hne)).symm, rfl, ?_⟩
      rw [hd', if_neg (Ne.symm hne)]; rfl
    · rw [reqs_other (by simp)] at hreqs
      exact hreqs

theorem reach_inv {c : Cfg} (hm : 0 < c.mtu) {s : St} (h : Reach c s) : Inv c s := by
  induction h with
  | init => exact .init c
  | step _ hs ih =>
    cases hs with
    | flow now bytes rd => exact ih.accessFlow hm now bytes rd
    | request now req bytes => exact ih.request now req bytes
    | exec h =>
      cases h with
      | run pre post t e he hx =>
        obtain ⟨s', e1, e2⟩ := exec_spec ih pre post t e he
        rw [hx] at e1
        injection e1 with e1
        rw [e1]; exact e2

/-- Whatever is asked and in whatever order events run: the callback of a flow runs at most once;
when it runs, exactly the bytes of the flow have been moved, and no channel is still busy with
them. -/
theorem C114_snappr_once (c : Cfg) (hm : 0 < c.mtu) (s : St) (h : Reach c s) :
    (s.done.map (·.2)).Nodup ∧
    ∀ t id, (t, id) ∈ s.done → ∃ bytes, (id, bytes) ∈ s.calls ∧
      ((s.log.filter fun u => u.owner = some id).map (·.bytes)).sum = bytes ∧
      ∀ u ∈ s.log, u.owner = some id → u.start + c.byteDelay * u.bytes ≤ t := by
  have hi := reach_inv hm h
  have hph : ∀ t id, (t, id) ∈ s.done → ∃ bytes, (id, bytes) ∈ s.calls ∧ Phase c s id bytes := by
    intro t id hd
    by_cases hlt : id < s.nextId
    · obtain ⟨b, hb⟩ := hi.known hlt
      exact ⟨b, hb, hi.phase _ hb⟩
    · have := (hi.fresh id (by omega)).2.2.2
      have hmem : (t, id) ∈ doneOf s id := List.mem_filter.2 ⟨hd, by simp⟩
      rw [this] at hmem; simp at hmem
  have hone : ∀ t id, (t, id) ∈ s.done → doneOf s id = [(t, id)] := by
    intro t id hd
    obtain ⟨b, _, hp⟩ := hph t id hd
    have hmem : (t, id) ∈ doneOf s id := List.mem_filter.2 ⟨hd, by simp⟩
    cases hp with
    | issue t' b' f hf he hd' => rw [hd'] at hmem; simp at hmem
    | resp t' b' f hf he hd' => rw [hd'] at hmem; simp at hmem
    | call t' hf he hd' => rw [hd'] at hmem; simp at hmem
    | done t' hf he hd' => rw [hd'] at hmem ⊢; rw [List.mem_singleton.1 hmem]
  refine ⟨?_, ?_⟩
  · have : ∀ (l : List (Nat × Nat)), (∀ t id, (t, id) ∈ l → (l.filter fun d => decide (d.2 = id)).length ≤ 1) → (l.map (·.2)).Nodup := by
      intro l
      induction l with
      | nil => intro _; simp
      | cons d l ih =>
        intro hl
        rw [List.map_cons, List.nodup_cons]
        refine ⟨?_, ih ?_⟩
        · intro hmem
          obtain ⟨e, he, hed⟩ := List.mem_map.1 hmem
          have := hl d.1 d.2 List.mem_cons_self
          rw [List.filter_cons, if_pos (by simp)] at this
          have hpos : 0 < (l.filter fun x => decide (x.2 = d.2)).length :=
            List.length_pos_of_mem (List.mem_filter.2 ⟨he, by simpa using hed⟩)
          simp only [List.length_cons] at this
          omega
        · intro t id hmem
          have := hl t id (List.mem_cons_of_mem _ hmem)
          rw [List.filter_cons] at this
          split at this
          · simp only [List.length_cons] at this; omega
          · exact this
    apply this
    intro t id hd
    show (doneOf s id).length ≤ 1
    rw [hone t id hd]; simp
  · intro t id hd
    obtain ⟨b, hb, hp⟩ := hph t id hd
    have hmem := hone t id hd
    cases hp with
    | issue t' b' f hf he hd' => rw [hd'] at hmem; simp at hmem
    | resp t' b' f hf he hd' => rw [hd'] at hmem; simp at hmem
    | call t' hf he hd' => rw [hd'] at hmem; simp at hmem
    | done t' hf he hd' hmv hu =>
      rw [hd'] at hmem
      simp only [List.cons.injEq, Prod.mk.injEq, and_true] at hmem
      subst hmem
      refine ⟨b, hb, hmv, ?_⟩
      intro u hu1 hu2
      exact hu u (List.mem_filter.2 ⟨hu1, by simpa using hu2⟩)

/-- How many events can still follow from one event. -/
def wt (flows : Nat → Option Flow) (p : Nat × Ev) : Nat :=
  match p.2 with
  | .issue i _ => 3 + 2 * ((flows i).map (·.left)).getD 0
  | .resp i _ => 2 + 2 * ((flows i).map (·.left)).getD 0
  | .reply _ _ => 1
  | .call _ => 1

/-- How many events can still follow. -/
def weight (s : St) : Nat := (s.evs.map (wt s.flows)).sum

theorem wt_put (flows : Nat → Option Flow) (i : Nat) (f : Option Flow) (l : List (Nat × Ev)) (h : l.filter (own i) = []) :
    (l.map (wt (put flows i f))).sum = (l.map (wt flows)).sum := by
  congr 1
  apply List.map_congr_left
  intro p hp
  have ho : own i p = false := by
    cases hb : own i p with
    | false => rfl
    | true =>
      have : p ∈ l.filter (own i) := List.mem_filter.2 ⟨hp, hb⟩
      rw [h] at this; simp at this
  obtain ⟨t, e⟩ := p
  cases e with
  | issue j b => simp only [own, decide_eq_false_iff_not] at ho; simp only [wt, put_other _ _ _ _ ho]
  | resp j b => simp only [own, decide_eq_false_iff_not] at ho; simp only [wt, put_other _ _ _ _ ho]
  | reply j b => rfl
  | call j => rfl

theorem exec_weight {c : Cfg} (hm : 0 < c.mtu) {s s' : St} (h : Inv c s) (hx : Exec c s s') : weight s' < weight s := by
  cases hx with
  | run pre post t e hs hx =>
    have hw : weight s = ((pre ++ post).map (wt s.flows)).sum + wt s.flows (t, e) := by
      rw [weight, hs]; simp only [List.map_append, List.map_cons, List.sum_append, List.sum_cons]; omega
    have hmem : (t, e) ∈ s.evs := by rw [hs]; simp
    cases e with
    | issue flow b =>
      simp only [exec] at hx
      injection hx with hx
      subst hx
      rw [hw]
      simp only [weight, access, List.map_append, List.map_cons, List.map_nil, List.sum_append, List.sum_cons, List.sum_nil, wt]
      omega
    | resp flow b =>
      have ho : own flow (t, .resp flow b) = true := by simp [own]
      obtain ⟨total, hcall, hph⟩ := ev_known h hmem ho
      have hsing : ∀ x, evsOf s flow = [x] → (t, Ev.resp flow b) = x ∧ (pre ++ post).filter (own flow) = [] := by
        intro x hx
        rw [evsOf, hs] at hx
        exact evs_split ho hx
      have hne : (pre ++ post).filter (own flow) = [] := by
        cases hph with
        | resp t' b' f hf he => exact (hsing _ he).2
        | issue t' b' f hf he => exact (hsing _ he).2
        | call t' hf he => exact (hsing _ he).2
        | done t' hf he =>
          have : (t, Ev.resp flow b) ∈ evsOf s flow := List.mem_filter.2 ⟨hmem, ho⟩
          rw [he] at this; simp at this
      simp only [exec, response] at hx
      cases hf : s.flows flow with
      | none => rw [hf] at hx; cases hx
      | some f =>
        rw [hf] at hx
        simp only at hx
        rw [hw]
        split at hx
        · injection hx with hx
          subst hx
          simp only [weight]
          rw [List.map_append (l₁ := pre ++ post), List.sum_append, wt_put _ _ _ _ hne]
          simp only [List.map_cons, List.map_nil, List.sum_cons, List.sum_nil, wt]
          omega
        · injection hx with hx
          subst hx
          simp only [weight]
          rw [List.map_append (l₁ := pre ++ post), List.sum_append, wt_put _ _ _ _ hne]
          simp only [List.map_cons, List.map_nil, List.sum_cons, List.sum_nil, wt, put_same, hf, Option.map_some, Option.getD_some]
          omega
    | reply r b =>
      simp only [exec] at hx
      injection hx with hx
      subst hx
      rw [hw]
      simp only [weight, wt]; omega
    | call flow =>
      simp only [exec] at hx
      injection hx with hx
      subst hx
      rw [hw]
      simp only [weight, wt]; omega

/-- A number of events run one after the other. -/
inductive Runs (c : Cfg) : Nat → St → St → Prop where
  | nil (s : St) : Runs c 0 s s
  | snoc {n : Nat} {s s' s'' : St} : Runs c n s s' → Exec c s' s'' → Runs c (n + 1) s s''

/-- From every state the memory can be in, only a bounded number of events can run unless more is
asked; as long as an event is scheduled it can run; and when none is left, the callback of every
flow has run and every request of the network interface has been answered, as often as it was
made. -/
theorem C114_snappr_completes (c : Cfg) (hm : 0 < c.mtu) (s : St) (h : Reach c s) :
    (∃ bound, ∀ n s', Runs c n s s' → n ≤ bound) ∧
    (∀ t e, (t, e) ∈ s.evs → ∃ s', Exec c s s') ∧
    (s.evs = [] → (∀ p ∈ s.calls, p.1 ∈ s.done.map (·.2)) ∧ s.asked.Perm (s.replies.map (·.2))) := by
  have hi := reach_inv hm h
  refine ⟨⟨weight s, ?_⟩, ?_, ?_⟩
  · have : ∀ n s', Runs c n s s' → Inv c s' ∧ n + weight s' ≤ weight s := by
      intro n s' hr
      induction hr with
      | nil => exact ⟨hi, by omega⟩
      | snoc _ hx ih =>
        obtain ⟨i1, i2⟩ := ih h hi
        have hw := exec_weight hm i1 hx
        refine ⟨?_, by omega⟩
        cases hx with
        | run pre post t e he hx =>
          obtain ⟨s', e1, e2⟩ := exec_spec i1 pre post t e he
          rw [hx] at e1
          injection e1 with e1
          rw [e1]; exact e2
    intro n s' hr
    have := (this n s' hr).2
    omega
  · intro t e he
    obtain ⟨pre, post, hs⟩ := List.append_of_mem he
    obtain ⟨s', e1, _⟩ := exec_spec hi pre post t e hs
    exact ⟨s', .run pre post t e hs e1⟩
  · intro hev
    have hno : ∀ id, evsOf s id = [] := fun id => by rw [evsOf, hev]; rfl
    refine ⟨?_, ?_⟩
    · intro p hp
      cases hi.phase p hp with
      | issue t' b' f hf he => rw [hno] at he; simp at he
      | resp t' b' f hf he => rw [hno] at he; simp at he
      | call t' hf he => rw [hno] at he; simp at he
      | done t' hf he hd' =>
        have : (t', p.1) ∈ doneOf s p.1 := by rw [hd']; simp
        have := (List.mem_filter.1 this).1
        exact List.mem_map_of_mem (f := (·.2)) this
    · have := hi.reqs
      rw [hev] at this
      simpa using this

/-- No channel is busy with two things at once, and the channels take turns. -/
theorem C114_snappr_channels (c : Cfg) (hm : 0 < c.mtu) (_hc : 0 < c.channels) (s : St) (h : Reach c s) :
    (s.log.Pairwise fun u v => u.chan = v.chan →
      v.start + c.byteDelay * v.bytes ≤ u.start ∨ u.start + c.byteDelay * u.bytes ≤ v.start) ∧
    s.log.reverse.map (·.chan) = (List.range s.log.length).map (· % c.channels) := by
  refine ⟨(reach_inv hm h).chans.imp fun a e => .inl (a e), ?_⟩
  suffices s.interleaver = s.log.length % c.channels ∧ s.log.reverse.map (·.chan) = (List.range s.log.length).map (· % c.channels) from this.2
  have hacc : ∀ (s : St) (now : Nat) (o : Option Nat) (ev : Ev) (b : Nat),
      (s.interleaver = s.log.length % c.channels ∧ s.log.reverse.map (·.chan) = (List.range s.log.length).map (· % c.channels)) →
      (access c now o ev b s).interleaver = (access c now o ev b s).log.length % c.channels ∧
      (access c now o ev b s).log.reverse.map (·.chan) = (List.range (access c now o ev b s).log.length).map (· % c.channels) := by
    rintro s now o ev b ⟨h1, h2⟩
    simp only [access, List.length_cons, List.reverse_cons, List.map_append, List.map_cons, List.map_nil, h2, List.range_succ]
    rw [h1]
    exact ⟨Nat.mod_add_mod _ _ _, rfl⟩
  induction h with
  | init => exact ⟨(Nat.zero_mod _).symm, rfl⟩
  | step _ hs ih =>
    cases hs with
    | flow now bytes rd => unfold accessFlow; split <;> exact ih
    | request now req bytes => exact hacc _ now none (.reply req bytes) bytes ih
    | exec h =>
      cases h with
      | run pre post t e he hx =>
        cases e with
        | issue flow b => simp only [exec] at hx; injection hx with hx; subst hx; exact hacc _ t (some flow) (.resp flow b) b ih
        | resp flow b =>
          simp only [exec, response] at hx
          split at hx
          · cases hx
          · split at hx
            · injection hx with hx; subst hx; exact ih
            · injection hx with hx; subst hx; exact ih
        | reply r b => simp only [exec] at hx; injection hx with hx; subst hx; exact ih
        | call flow => simp only [exec] at hx; injection hx with hx; subst hx; exact ih

/-! ### A run -/

/-- Two channels, pieces of four bytes, one unit of time per byte. -/
def cfg0 : Cfg := ⟨2, 4, 1⟩

/-- At time 0 a flow of ten bytes without request delay: the first piece has two bytes and is asked
for at once. -/
example : (accessFlow cfg0 0 10 0 St.init).evs = [(0, .issue 0 2)] := rfl

/-- The flow from start to end: pieces of 2, 4 and 4 bytes on channels 0, 1 and 0, the callback at
time 6. -/
example :
    ((((((((some (accessFlow cfg0 0 10 0 St.init)).bind fun s => exec cfg0 0 { s with evs := [] } (.issue 0 2)).bind
      fun s => exec cfg0 0 { s with evs := [] } (.resp 0 2)).bind
      fun s => exec cfg0 0 { s with evs := [] } (.issue 0 4)).bind
      fun s => exec cfg0 0 { s with evs := [] } (.resp 0 4)).bind
      fun s => exec cfg0 0 { s with evs := [] } (.issue 0 4)).bind
      fun s => exec cfg0 2 { s with evs := [] } (.resp 0 4)).bind
      fun s => exec cfg0 6 { s with evs := [] } (.call 0)).map (fun s => (s.evs, s.done, s.log)) =
    some ([], [(6, 0)], [⟨0, some 0, 2, 4⟩, ⟨1, some 0, 0, 4⟩, ⟨0, some 0, 0, 2⟩]) := rfl

/-- The same run with states as the theorems speak of them. -/
example : ∃ s, Reach cfg0 s ∧ s.evs = [] ∧ s.done = [(6, 0)] ∧ s.calls = [(0, 10)] := by
  refine ⟨_, .step (.step (.step (.step (.step (.step (.step (.step .init (.flow _ 0 10 0))
    (.exec (.run [] [] 0 (.issue 0 2) rfl rfl)))
    (.exec (.run [] [] 0 (.resp 0 2) rfl rfl)))
    (.exec (.run [] [] 0 (.issue 0 4) rfl rfl)))
    (.exec (.run [] [] 0 (.resp 0 4) rfl rfl)))
    (.exec (.run [] [] 0 (.issue 0 4) rfl rfl)))
    (.exec (.run [] [] 2 (.resp 0 4) rfl rfl)))
    (.exec (.run [] [] 6 (.call 0) rfl rfl)), rfl, rfl, rfl⟩

end SST.Mem.Snappr
