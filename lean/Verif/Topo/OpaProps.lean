import Verif.Topo.Opa
/-
C153: snapshots of Omni-Path fabrics become the links and routes of the fabric.
-/
set_option autoImplicit false
namespace Verif.Topo.Opa

/-! ### Dictionaries -/

section
variable {κ β : Type} [DecidableEq κ]

theorem get_nil (k : κ) : get ([] : Dict κ β) k = none := rfl

theorem get_cons (e : κ × β) (d : Dict κ β) (k : κ) : get (e :: d) k = if e.1 = k then some e.2 else get d k := by
  unfold get
  by_cases h : e.1 = k
  · rw [List.find?_cons_of_pos (by simpa using h), if_pos h]; rfl
  · rw [List.find?_cons_of_neg (by simpa using h), if_neg h]

theorem get_append_one (d : Dict κ β) (k k' : κ) (v : β) (h : ∀ e ∈ d, e.1 ≠ k) :
    get (d ++ [(k, v)]) k' = if k' = k then some v else get d k' := by
  induction d with
  | nil =>
    rw [List.nil_append, get_cons, get_nil]
    simp only
    by_cases e : k = k' <;> simp [e, eq_comm]
  | cons a d ih =>
    rw [List.cons_append, get_cons, get_cons, ih (fun e he => h e (by simp [he]))]
    have := h a (by simp)
    by_cases e : a.1 = k'
    · simp only [e, if_true]; rw [if_neg (fun e' => this (e.trans e'))]
    · simp only [e, if_false]

theorem get_replace (d : Dict κ β) (k k' : κ) (v : β) :
    get (d.map fun e => if e.1 = k then (k, v) else e) k' = if k' = k ∧ (d.any fun e => e.1 = k) then some v else get d k' := by
  induction d with
  | nil => simp [get_nil]
  | cons a d ih =>
    rw [List.map_cons, get_cons, get_cons, ih, List.any_cons]
    by_cases e : a.1 = k
    · by_cases e' : k = k'
      · subst e'; simp [e]
      · have e2 : ¬ k' = k := fun h => e' h.symm
        simp [e, e', e2]
    · by_cases e' : a.1 = k'
      · have e2 : ¬ k' = k := fun h => e (e'.trans h)
        simp [e', e2]
      · simp only [e, e', if_false, decide_false, Bool.false_or]

theorem get_set (d : Dict κ β) (k k' : κ) (v : β) : get (set d k v) k' = if k' = k then some v else get d k' := by
  unfold set
  split
  · next h => rw [get_replace]; simp [h]
  · next h =>
    apply get_append_one
    intro e he hk
    exact h (List.any_eq_true.mpr ⟨e, he, by simpa using hk⟩)

theorem keys_set (d : Dict κ β) (k : κ) (v : β) (h : (d.map (·.1)).Nodup) : ((set d k v).map (·.1)).Nodup := by
  unfold set
  split
  · rw [List.map_map]
    have : ((fun e : κ × β => e.1) ∘ fun e => if e.1 = k then (k, v) else e) = fun e => e.1 := by
      funext e
      simp only [Function.comp]
      split
      · next h => exact h.symm
      · rfl
    rw [this]; exact h
  · next hn =>
    rw [List.map_append, List.nodup_append]
    refine ⟨h, by simp, ?_⟩
    intro a ha b hb e
    simp only [List.map_cons, List.map_nil, List.mem_singleton] at hb
    obtain ⟨x, hx, rfl⟩ := List.mem_map.mp ha
    exact hn (List.any_eq_true.mpr ⟨x, hx, by simp [e, hb]⟩)

theorem get_iff_mem {d : Dict κ β} (h : (d.map (·.1)).Nodup) (k : κ) (v : β) : get d k = some v ↔ (k, v) ∈ d := by
  induction d with
  | nil => simp [get_nil]
  | cons a d ih =>
    rw [List.map_cons, List.nodup_cons] at h
    rw [get_cons, List.mem_cons]
    by_cases e : a.1 = k
    · subst e
      simp only [if_true, Option.some.injEq]
      constructor
      · intro e; exact .inl (by rw [← e])
      · rintro (e | e)
        · rw [← e]
        · exact absurd (List.mem_map.mpr ⟨_, e, rfl⟩) h.1
    · simp only [e, if_false, ih h.2]
      constructor
      · exact .inr
      · rintro (e' | e')
        · exact absurd (by rw [← e']) e
        · exact e'

theorem ofPairs_append {l : List (κ × β)} : ∀ (d : Dict κ β), ((d ++ l).map (·.1)).Nodup →
    l.foldl (fun d e => set d e.1 e.2) d = d ++ l := by
  induction l with
  | nil => intro d _; simp
  | cons a l ih =>
    intro d h
    have h1 : set d a.1 a.2 = d ++ [a] := by
      unfold set
      rw [if_neg]
      intro hc
      obtain ⟨e, he, hk⟩ := List.any_eq_true.mp hc
      rw [List.map_append, List.nodup_append] at h
      exact h.2.2 e.1 (List.mem_map.mpr ⟨e, he, rfl⟩) a.1 (by simp) (by simpa using hk)
    rw [List.foldl_cons, h1, ih _ (by simpa using h)]
    simp

/-- Pairs with distinct keys are their dictionary. -/
theorem ofPairs_self {l : List (κ × β)} (h : (l.map (·.1)).Nodup) : ofPairs l = l := by
  unfold ofPairs
  rw [ofPairs_append [] (by simpa using h)]; rfl

/-- All loops that make a dictionary: `f` gives an exception, nothing, or an entry. -/
def build {ε : Type} (f : ε → Option (Option (κ × β))) (l : List ε) (m : Dict κ β) : Option (Dict κ β) :=
  l.foldl (fun r e => r.bind fun m => match f e with
    | none => none
    | some none => some m
    | some (some x) => some (set m x.1 x.2)) (some m)

theorem foldl_none {ε α : Type} (g : α → ε → Option α) (l : List ε) : l.foldl (fun r e => r.bind fun m => g m e) none = none := by
  induction l with
  | nil => rfl
  | cons a l ih => rw [List.foldl_cons]; exact ih

theorem build_cons {ε : Type} (f : ε → Option (Option (κ × β))) (e : ε) (l : List ε) (m : Dict κ β) :
    build f (e :: l) m = match f e with
      | none => none
      | some none => build f l m
      | some (some x) => build f l (set m x.1 x.2) := by
  unfold build
  rw [List.foldl_cons]
  simp only [Option.bind_some]
  cases f e with
  | none => exact foldl_none (fun (m : Dict κ β) e => match f e with
    | none => none
    | some none => some m
    | some (some x) => some (set m x.1 x.2)) l
  | some o => cases o with
    | none => rfl
    | some x => rfl

theorem build_ok {ε : Type} (f : ε → Option (Option (κ × β))) : ∀ (l : List ε) (m : Dict κ β),
    (∃ r, build f l m = some r) ↔ ∀ e ∈ l, f e ≠ none := by
  intro l
  induction l with
  | nil => intro m; simp [build]
  | cons a l ih =>
    intro m
    rw [build_cons]
    cases h : f a with
    | none => simp [h]
    | some o => cases o with
      | none => simp [h, ih]
      | some x => simp [h, ih]

theorem build_get {ε : Type} (f : ε → Option (Option (κ × β))) : ∀ (l : List ε) (m r : Dict κ β),
    l.Pairwise (fun a b => ∀ k v w, f a = some (some (k, v)) → f b ≠ some (some (k, w))) → build f l m = some r →
      ∀ k v, get r k = some v ↔ (∃ e ∈ l, f e = some (some (k, v))) ∨ ((∀ e ∈ l, ∀ w, f e ≠ some (some (k, w))) ∧ get m k = some v) := by
  intro l
  induction l with
  | nil => intro m r _ h k v; simp only [build, List.foldl_nil, Option.some.injEq] at h; simp [h]
  | cons a l ih =>
    intro m r hp h k v
    rw [List.pairwise_cons] at hp
    rw [build_cons] at h
    cases ha : f a with
    | none => rw [ha] at h; cases h
    | some o => cases o with
      | none =>
        rw [ha] at h
        rw [ih m r hp.2 h]
        simp [ha]
      | some x =>
        rw [ha] at h
        obtain ⟨x1, x2⟩ := x
        rw [ih _ r hp.2 h, get_set]
        by_cases e : k = x1
        · subst e
          have hno : ∀ e ∈ l, ∀ w, f e ≠ some (some (k, w)) := fun e he w => hp.1 e he k x2 w ha
          simp only [if_true, Option.some.injEq]
          constructor
          · rintro (⟨e, he, h⟩ | ⟨_, h⟩)
            · exact absurd h (hno e he v)
            · exact .inl ⟨a, by simp, by rw [ha, h]⟩
          · rintro (⟨e, he, h⟩ | ⟨h1, _⟩)
            · rcases List.mem_cons.mp he with rfl | he
              · rw [ha] at h; simp only [Option.some.injEq, Prod.mk.injEq, true_and] at h
                exact .inr ⟨hno, h⟩
              · exact absurd h (hno e he v)
            · exact absurd ha (h1 a (by simp) x2)
        · have hne : ∀ w, f a ≠ some (some (k, w)) := fun w h => by rw [ha] at h; simp at h; exact e h.1.symm
          simp only [e, if_false]
          constructor
          · rintro (⟨b, hb, h⟩ | ⟨h1, h2⟩)
            · exact .inl ⟨b, by simp [hb], h⟩
            · refine .inr ⟨?_, h2⟩
              intro b hb w
              rcases List.mem_cons.mp hb with rfl | hb
              · exact hne w
              · exact h1 b hb w
          · rintro (⟨b, hb, h⟩ | ⟨h1, h2⟩)
            · rcases List.mem_cons.mp hb with rfl | hb
              · exact absurd h (hne v)
              · exact .inl ⟨b, hb, h⟩
            · exact .inr ⟨fun b hb => h1 b (by simp [hb]), h2⟩

end

/-! ### Links -/

/-- The ends of all links, with the other ends. -/
def ends (s : Snapshot) : List ((Nat × Nat) × (Nat × Nat)) :=
  s.links.flatMap fun l => [((l.fromGuid, l.fromPort), (l.toGuid, l.toPort)), ((l.toGuid, l.toPort), (l.fromGuid, l.fromPort))]

/-- No port has two cables. -/
def Wired (s : Snapshot) : Prop := ((ends s).map (·.1)).Nodup

/-- There is a cable between two ports. -/
def Cable (s : Snapshot) (g p g' q : Nat) : Prop := (⟨g, p, g', q⟩ : Link) ∈ s.links ∨ (⟨g', q, g, p⟩ : Link) ∈ s.links

theorem mem_ends {s : Snapshot} {g p g' q : Nat} : ((g, p), (g', q)) ∈ ends s ↔ Cable s g p g' q := by
  unfold ends Cable
  rw [List.mem_flatMap]
  constructor
  · rintro ⟨l, hl, h⟩
    obtain ⟨a, b, c, d⟩ := l
    simp only [List.mem_cons, List.not_mem_nil, or_false, Prod.mk.injEq] at h
    rcases h with ⟨⟨rfl, rfl⟩, rfl, rfl⟩ | ⟨⟨rfl, rfl⟩, rfl, rfl⟩
    · exact .inl hl
    · exact .inr hl
  · rintro (h | h)
    · exact ⟨_, h, by simp⟩
    · exact ⟨_, h, by simp⟩

theorem look_put (t : LinkTable) (g p g' p' : Nat) (v : Nat × Nat) :
    look (put t g p v) g' p' = if (g', p') = (g, p) then some v else look t g' p' := by
  unfold look put
  rw [get_set]
  by_cases h : g' = g
  · subst h
    simp only [if_true, Option.bind_some, get_set, Prod.mk.injEq, true_and]
    split
    · rfl
    · cases get t g' with
      | none => rfl
      | some row => rfl
  · simp [h]

theorem linkTable_eq (s : Snapshot) : linkTable s = (ends s).foldl (fun t e => put t e.1.1 e.1.2 e.2) [] := by
  unfold linkTable ends
  generalize ([] : LinkTable) = t
  induction s.links generalizing t with
  | nil => rfl
  | cons l ls ih => rw [List.foldl_cons, List.flatMap_cons, List.foldl_append, ih]; rfl

theorem look_fold : ∀ (l : List ((Nat × Nat) × (Nat × Nat))) (t : LinkTable), (l.map (·.1)).Nodup → ∀ (g p : Nat) (v : Nat × Nat),
    look (l.foldl (fun t e => put t e.1.1 e.1.2 e.2) t) g p = some v ↔
      ((g, p), v) ∈ l ∨ ((g, p) ∉ l.map (·.1) ∧ look t g p = some v) := by
  intro l
  induction l with
  | nil => intro t _ g p v; simp
  | cons a l ih =>
    intro t h g p v
    rw [List.map_cons, List.nodup_cons] at h
    rw [List.foldl_cons, ih _ h.2, look_put, List.map_cons, List.mem_cons, List.mem_cons]
    obtain ⟨⟨a1, a2⟩, a3⟩ := a
    simp only
    by_cases e : (g, p) = (a1, a2)
    · rw [if_pos e]
      simp only [Prod.mk.injEq] at e
      obtain ⟨rfl, rfl⟩ := e
      have hn : (g, p) ∉ l.map (·.1) := h.1
      constructor
      · rintro (hm | ⟨_, hv⟩)
        · exact .inl (.inr hm)
        · simp only [Option.some.injEq] at hv; exact .inl (.inl (by rw [hv]))
      · rintro ((hm | hm) | ⟨hn', _⟩)
        · simp only [Prod.mk.injEq, true_and] at hm; exact .inr ⟨hn, by rw [hm]⟩
        · exact .inl hm
        · exact absurd (.inl rfl) hn'
    · rw [if_neg e]
      constructor
      · rintro (hm | ⟨hn, hv⟩)
        · exact .inl (.inr hm)
        · refine .inr ⟨?_, hv⟩
          rintro (h | h)
          · exact e h
          · exact hn h
      · rintro ((hm | hm) | ⟨hn, hv⟩)
        · exact absurd (congrArg (·.1) hm) e
        · exact .inl hm
        · exact .inr ⟨fun h => hn (.inr h), hv⟩

/-- C153: the table of links has exactly the cables of the snapshot, in both directions, if no port has two of them. -/
theorem C153_links_partial {s : Snapshot} (h : Wired s) (g p g' q : Nat) :
    look (linkTable s) g p = some (g', q) ↔ Cable s g p g' q := by
  rw [linkTable_eq, look_fold _ _ h, ← mem_ends]
  simp [look, get_nil]

/-- Two switches and two nodes. -/
def exampleSnapshot : Snapshot where
  devices := [⟨10, ['s', '1'], 0, true⟩, ⟨11, ['s', '2'], 0, true⟩, ⟨20, ['n', '1', ' ', 'h'], 1, false⟩, ⟨21, ['n', '2', ' ', 'h'], 2, false⟩]
  links := [⟨10, 1, 20, 1⟩, ⟨10, 2, 11, 3⟩, ⟨21, 1, 11, 1⟩]
  fdb := fun g => if g = 10 then [(1, 1), (2, 2)] else [(1, 3), (2, 1)]

example : Wired exampleSnapshot ∧ look (linkTable exampleSnapshot) 11 3 = some (10, 2) := by
  refine ⟨?_, by decide⟩
  unfold Wired
  decide

/-- C153, refuted: with two cables at a port, the table of links is not symmetric. -/
theorem C153_links_refuted : ∃ (s : Snapshot) (g p g' q : Nat), look (linkTable s) g p = some (g', q) ∧
    look (linkTable s) g' q ≠ some (g, p) :=
  ⟨⟨[], [⟨1, 1, 2, 1⟩, ⟨1, 1, 3, 1⟩], fun _ => []⟩, 2, 1, 1, 1, by decide, by decide⟩

/-- Rows and table have distinct keys. -/
def Neat (t : LinkTable) : Prop := (t.map (·.1)).Nodup ∧ ∀ g row, get t g = some row → (row.map (·.1)).Nodup

theorem neat_put {t : LinkTable} (h : Neat t) (g p : Nat) (v : Nat × Nat) : Neat (put t g p v) := by
  refine ⟨keys_set _ _ _ h.1, ?_⟩
  intro g' row hr
  unfold put at hr
  rw [get_set] at hr
  split at hr
  · simp only [Option.some.injEq] at hr
    rw [← hr]
    apply keys_set
    cases e : get t g with
    | none => simp
    | some r => exact h.2 g r e
  · exact h.2 g' row hr

theorem neat_linkTable (s : Snapshot) : Neat (linkTable s) := by
  rw [linkTable_eq]
  have : ∀ (l : List ((Nat × Nat) × (Nat × Nat))) (t : LinkTable), Neat t → Neat (l.foldl (fun t e => put t e.1.1 e.1.2 e.2) t) := by
    intro l
    induction l with
    | nil => intro t h; exact h
    | cons a l ih => intro t h; rw [List.foldl_cons]; exact ih _ (neat_put h _ _ _)
  exact this _ _ ⟨by simp, fun g row h => by rw [get_nil] at h; cases h⟩

/-! ### Maps for the simulator -/

theorem outports_build (names : Dict Nat Name) (row : Dict Nat (Nat × Nat)) :
    outports names row = build (fun e => (get names e.2.1).map fun nm => some ((e.1 : Int) - 1, (nm, (e.2.2 : Int) - 1))) row [] := by
  unfold outports build
  congr 1
  funext r e
  cases r with
  | none => rfl
  | some m => simp only [Option.bind_some]; cases get names e.2.1 <;> rfl

/-- The ports of a device are those of its row, one lower. -/
theorem outports_get {names : Dict Nat Name} {row : Dict Nat (Nat × Nat)} (h : (row.map (·.1)).Nodup) {o : Ports}
    (ho : outports names row = some o) (i : Int) (nm : Name) (j : Int) :
    get o i = some (nm, j) ↔ ∃ p g q : Nat, get row p = some (g, q) ∧ get names g = some nm ∧ i = (p : Int) - 1 ∧ j = (q : Int) - 1 := by
  rw [outports_build] at ho
  rw [build_get _ _ _ _ ?_ ho]
  · simp only [get_nil, reduceCtorEq, and_false, or_false]
    constructor
    · rintro ⟨⟨p, g, q⟩, he, hf⟩
      simp only at hf
      cases hn : get names g with
      | none => rw [hn] at hf; cases hf
      | some x =>
        rw [hn] at hf
        simp only [Option.map_some, Option.some.injEq, Prod.mk.injEq] at hf
        exact ⟨p, g, q, (get_iff_mem h _ _).mpr he, by rw [hn, hf.2.1], hf.1.symm, hf.2.2.symm⟩
    · rintro ⟨p, g, q, hr, hn, rfl, rfl⟩
      exact ⟨(p, g, q), (get_iff_mem h _ _).mp hr, by simp [hn]⟩
  · have h' : row.Pairwise (fun a b => a.1 ≠ b.1) := List.pairwise_map.mp h
    refine h'.imp ?_
    intro a b hab k v w ha hb
    cases h1 : get names a.2.1 with
    | none => rw [h1] at ha; cases ha
    | some x =>
      cases h2 : get names b.2.1 with
      | none => rw [h2] at hb; cases hb
      | some y =>
        rw [h1] at ha
        rw [h2] at hb
        simp only [Option.map_some, Option.some.injEq, Prod.mk.injEq] at ha hb
        exact hab (by omega)

theorem sstMap_build (pre : Name) (names : Dict Nat Name) (t : LinkTable) :
    sstMap pre names t = build (fun e => if contains pre e.2 then (get t e.1).bind fun row => (outports names row).map fun o => some (e.2, o)
      else some none) names [] := by
  unfold sstMap build
  congr 1
  funext r e
  cases r with
  | none => rfl
  | some m =>
    simp only [Option.bind_some, mapDevice]
    split
    · cases get t e.1 with
      | none => rfl
      | some row => simp only [Option.bind_some]; cases outports names row <;> rfl
    · rfl

/-- Devices are told apart by their GUIDs and by their names. -/
structure Distinct (shorten : Bool) (s : Snapshot) : Prop where
  guids : (s.devices.map (·.guid)).Nodup
  names : (s.devices.map fun d => parseIf shorten d.name).Nodup

theorem guidNames_eq {shorten : Bool} {s : Snapshot} (h : Distinct shorten s) :
    guidNames shorten s = s.devices.map fun d => (d.guid, parseIf shorten d.name) := by
  unfold guidNames
  apply ofPairs_self
  rw [List.map_map]
  exact h.guids

theorem guidNames_get {shorten : Bool} {s : Snapshot} (h : Distinct shorten s) (g : Nat) (nm : Name) :
    get (guidNames shorten s) g = some nm ↔ ∃ d ∈ s.devices, d.guid = g ∧ parseIf shorten d.name = nm := by
  rw [guidNames_eq h, get_iff_mem (by rw [List.map_map]; exact h.guids)]
  simp [List.mem_map]

/-- C153: a part of a name is found wherever it is. -/
theorem C153_part (sub n : Name) : contains sub n = true ↔ sub <:+: n := by
  induction n with
  | nil => simp [contains]
  | cons c r ih => rw [contains, Bool.or_eq_true, ih, List.infix_cons_iff, List.isPrefixOf_iff_prefix]

example : contains ['b', 'c'] ['a', 'b', 'c', 'd'] = true := by decide

theorem mem_takeWhile {p : Char → Bool} : ∀ {l : List Char} {c : Char}, c ∈ l.takeWhile p → p c = true := by
  intro l
  induction l with
  | nil => intro c h; cases h
  | cons x l ih =>
    intro c h
    rw [List.takeWhile_cons] at h
    split at h
    · next hx =>
      rcases List.mem_cons.mp h with rfl | h
      · exact hx
      · exact ih h
    · cases h

/-- C153: a shortened name is the first word. -/
theorem C153_shortened (n : Name) : ∃ a b, n = a ++ parseIf true n ++ b ∧ (∀ c ∈ a, c = ' ') ∧ ' ' ∉ parseIf true n ∧
    (parseIf true n = [] → b = []) ∧ (b ≠ [] → b.head? = some ' ') := by
  have h1 := List.takeWhile_append_dropWhile (p := (· = ' ')) (l := n)
  have h2 := List.takeWhile_append_dropWhile (p := fun c : Char => decide (c ≠ ' ')) (l := n.dropWhile (· = ' '))
  have hd : ∀ (p : Char → Bool) (l : List Char) (x : Char), (l.dropWhile p).head? = some x → p x = false := by
    intro p l
    induction l with
    | nil => intro x h; cases h
    | cons c l ih =>
      intro x h
      rw [List.dropWhile_cons] at h
      split at h
      · exact ih x h
      · next hc => simp only [List.head?_cons, Option.some.injEq] at h; rw [← h]; simpa using hc
  refine ⟨n.takeWhile (· = ' '), (n.dropWhile (· = ' ')).dropWhile (· ≠ ' '), ?_, ?_, ?_, ?_, ?_⟩
  · simp only [parseIf, if_true, List.append_assoc]
    rw [h2, h1]
  · intro c hc; simpa using mem_takeWhile hc
  · intro hc
    simp only [parseIf, if_true] at hc
    simpa using mem_takeWhile hc
  · intro he
    simp only [parseIf, if_true] at he
    rw [he, List.nil_append] at h2
    cases hx : n.dropWhile (· = ' ') with
    | nil => rfl
    | cons x r =>
      exfalso
      have h3 := hd (· = ' ') n x (by rw [hx]; rfl)
      rw [hx, List.takeWhile_cons] at he
      simp at h3
      simp [h3] at he
  · intro hb
    cases hx : (n.dropWhile (· = ' ')).dropWhile (· ≠ ' ') with
    | nil => exact absurd hx hb
    | cons x r =>
      have h3 := hd (fun c => decide (c ≠ ' ')) (n.dropWhile (· = ' ')) x (by rw [hx]; rfl)
      simp only [List.head?_cons, Option.some.injEq]
      simpa using h3

example : parseIf true [' ', 'n', '1', ' ', 'h'] = ['n', '1'] := by decide

/-- C153: each device whose name has the given part gets exactly the ports of its cables, one lower, with the names and
ports at their other ends, and no other device is mapped, if devices have different names and ports one cable. -/
theorem C153_ports_partial {shorten : Bool} {s : Snapshot} (hd : Distinct shorten s) (hw : Wired s) {pre : Name} {m : Dict Name Ports}
    (hm : sstMap pre (guidNames shorten s) (linkTable s) = some m) {d : Device} (h : d ∈ s.devices) :
    (¬ pre <:+: parseIf shorten d.name → get m (parseIf shorten d.name) = none) ∧
      (pre <:+: parseIf shorten d.name → ∃ o, get m (parseIf shorten d.name) = some o ∧ ∀ i nm j,
        get o i = some (nm, j) ↔ ∃ p q : Nat, ∃ d' ∈ s.devices, Cable s d.guid p d'.guid q ∧ nm = parseIf shorten d'.name ∧
          i = (p : Int) - 1 ∧ j = (q : Int) - 1) := by
  rw [← C153_part, Bool.not_eq_true]
  have hg := fun k v => build_get _ _ _ _ (by
      rw [guidNames_eq hd, List.pairwise_map]
      have h' : s.devices.Pairwise (fun a b => parseIf shorten a.name ≠ parseIf shorten b.name) := List.pairwise_map.mp hd.names
      refine h'.imp ?_
      intro a b hab k v w ha hb
      simp only at ha hb
      split at ha
      · split at hb
        · cases h1 : get (linkTable s) a.guid with
          | none => rw [h1] at ha; cases ha
          | some r1 => cases h2 : get (linkTable s) b.guid with
            | none => rw [h2] at hb; cases hb
            | some r2 =>
              rw [h1] at ha
              rw [h2] at hb
              simp only [Option.bind_some] at ha hb
              cases h3 : outports (guidNames shorten s) r1 with
              | none => rw [guidNames_eq hd] at h3; rw [h3] at ha; cases ha
              | some o1 => cases h4 : outports (guidNames shorten s) r2 with
                | none => rw [guidNames_eq hd] at h4; rw [h4] at hb; cases hb
                | some o2 =>
                  rw [guidNames_eq hd] at h3 h4
                  rw [h3] at ha
                  rw [h4] at hb
                  simp only [Option.map_some, Option.some.injEq, Prod.mk.injEq] at ha hb
                  exact hab (ha.1.trans hb.1.symm)
        · cases hb
      · cases ha) (sstMap_build pre (guidNames shorten s) (linkTable s) ▸ hm) k v
  have hmem : (d.guid, parseIf shorten d.name) ∈ guidNames shorten s := by
    rw [guidNames_eq hd]; exact List.mem_map.mpr ⟨d, h, rfl⟩
  have huniq : ∀ e ∈ guidNames shorten s, e.2 = parseIf shorten d.name → e = (d.guid, parseIf shorten d.name) := by
    intro e he h2
    rw [guidNames_eq hd] at he
    obtain ⟨d2, hd2, rfl⟩ := List.mem_map.mp he
    simp only at h2
    have key : ∀ (l : List Device), (l.map fun d => parseIf shorten d.name).Nodup → d ∈ l → d2 ∈ l → d2 = d := by
      intro l
      induction l with
      | nil => intro _ h; cases h
      | cons a l ih =>
        intro hn h1 h3
        rw [List.map_cons, List.nodup_cons] at hn
        rcases List.mem_cons.mp h1 with e1 | m1 <;> rcases List.mem_cons.mp h3 with e3 | m3
        · rw [e1, e3]
        · exact absurd (List.mem_map.mpr ⟨d2, m3, by rw [h2, e1]⟩) hn.1
        · exact absurd (List.mem_map.mpr ⟨d, m1, by rw [← h2, e3]⟩) hn.1
        · exact ih hn.2 m1 m3
    rw [key _ hd.names h hd2]
  constructor
  · intro hc
    cases hget : get m (parseIf shorten d.name) with
    | none => rfl
    | some o =>
      exfalso
      rcases (hg _ o).mp hget with ⟨e, he, hf⟩ | ⟨_, hf⟩
      · split at hf
        · next hce =>
          cases h1 : get (linkTable s) e.1 with
          | none => rw [h1] at hf; cases hf
          | some row =>
            rw [h1] at hf
            simp only [Option.bind_some] at hf
            cases h2 : outports (guidNames shorten s) row with
            | none => rw [h2] at hf; cases hf
            | some o2 =>
              rw [h2] at hf
              simp only [Option.map_some, Option.some.injEq, Prod.mk.injEq] at hf
              rw [hf.1, hc] at hce
              cases hce
        · cases hf
      · rw [get_nil] at hf; cases hf
  · intro hc
    have hok := (build_ok _ _ _).mp ⟨m, sstMap_build pre (guidNames shorten s) (linkTable s) ▸ hm⟩ _ hmem
    simp only [hc, if_true] at hok
    cases h1 : get (linkTable s) d.guid with
    | none => rw [h1] at hok; exact absurd rfl hok
    | some row =>
      rw [h1] at hok
      simp only [Option.bind_some] at hok
      cases h2 : outports (guidNames shorten s) row with
      | none => rw [h2] at hok; exact absurd rfl hok
      | some o =>
        refine ⟨o, (hg _ o).mpr (.inl ⟨_, hmem, by simp only [hc, if_true, h1, Option.bind_some, h2, Option.map_some]⟩), ?_⟩
        intro i nm j
        rw [outports_get ((neat_linkTable s).2 _ _ h1) h2]
        constructor
        · rintro ⟨p, g, q, hr, hn, rfl, rfl⟩
          obtain ⟨d', hd', rfl, rfl⟩ := (guidNames_get hd _ _).mp hn
          exact ⟨p, q, d', hd', (C153_links_partial hw _ _ _ _).mp (by unfold look; rw [h1]; exact hr), rfl, rfl, rfl⟩
        · rintro ⟨p, q, d', hd', hcable, rfl, rfl, rfl⟩
          have := (C153_links_partial hw _ _ _ _).mpr hcable
          unfold look at this
          rw [h1] at this
          exact ⟨p, d'.guid, q, this, (guidNames_get hd _ _).mpr ⟨d', hd', rfl, rfl⟩, rfl, rfl⟩

example : Distinct true exampleSnapshot ∧
    (sstMap ['s'] (guidNames true exampleSnapshot) (linkTable exampleSnapshot)).bind (fun m => get m ['s', '2']) =
      some [(2, (['s', '1'], 1)), (0, (['n', '2'], 0))] := by
  refine ⟨⟨by decide, by decide⟩, by decide⟩

/-- C153, refuted: two interfaces of one host have one shortened name: the ports of the first are lost. -/
theorem C153_ports_refuted : ∃ (s : Snapshot) (pre : Name) (m : Dict Name Ports) (d d' : Device) (p q : Nat), Wired s ∧
    (s.devices.map (·.guid)).Nodup ∧ (s.devices.map (·.name)).Nodup ∧ d ∈ s.devices ∧ d' ∈ s.devices ∧ Cable s d.guid p d'.guid q ∧
      sstMap pre (guidNames true s) (linkTable s) = some m ∧
        ∀ o, get m (parseIf true d.name) = some o → get o ((p : Int) - 1) ≠ some (parseIf true d'.name, (q : Int) - 1) := by
  refine ⟨⟨[⟨20, ['n', ' ', 'a'], 1, false⟩, ⟨21, ['n', ' ', 'b'], 2, false⟩, ⟨10, ['s'], 0, true⟩, ⟨11, ['t'], 0, true⟩],
    [⟨20, 1, 10, 1⟩, ⟨21, 1, 11, 1⟩], fun _ => []⟩, ['n'], [(['n'], [(0, (['t'], 0))])], ⟨20, ['n', ' ', 'a'], 1, false⟩,
    ⟨10, ['s'], 0, true⟩, 1, 1, ?_, by decide, by decide, by decide, by decide, ?_, by decide, ?_⟩
  · unfold Wired; decide
  · unfold Cable; decide
  · intro o ho
    have : o = [(0, (['t'], 0))] := by
      have h2 : get [((['n'] : Name), ([(0, ((['t'] : Name), 0))] : Ports))] (parseIf true ['n', ' ', 'a']) = some [(0, (['t'], 0))] := by decide
      exact Option.some.inj (ho.symm.trans h2)
    subst this
    decide

/-- C153, refuted: a device without a cable stops the conversion. -/
theorem C153_unlinked_refuted : ∃ (s : Snapshot) (pre : Name), Wired s ∧ Distinct false s ∧
    sstMap pre (guidNames false s) (linkTable s) = none := by
  refine ⟨⟨[⟨10, ['s'], 0, true⟩], [], fun _ => []⟩, ['s'], ?_, ⟨by decide, by decide⟩, by decide⟩
  unfold Wired; decide

/-- C153, refuted: no choice of flags gives all that the file topology needs. -/
theorem C153_keys_refuted (switchLinks nodeLinks named : Bool) : ∃ k ∈ neededKeys, k ∉ outputKeys switchLinks nodeLinks named := by
  refine ⟨['a', 'v', 'g', '_', 'n', 'u', 'm', '_', 'h', 'o', 'p', 's'], by decide, ?_⟩
  revert switchLinks nodeLinks named
  decide

/-! ### Routes for the simulator -/

theorem namedRow_build (names : Dict Nat Name) (lids : Dict Nat Nat) (row : Dict Nat Nat) :
    namedRow names lids row = build (fun e => match get lids e.1 with
      | none => some none
      | some g => (get names g).map fun nm => some (nm, (e.2 : Int) - 1)) row [] := by
  unfold namedRow build
  congr 1
  funext r e
  cases r with
  | none => rfl
  | some m =>
    simp only [Option.bind_some]
    cases get lids e.1 with
    | none => rfl
    | some g => simp only; cases get names g <;> rfl

theorem namedRoutes_build (rt : Dict Nat (Dict Nat Nat)) (names : Dict Nat Name) (lids : Dict Nat Nat) :
    namedRoutes rt names lids = build (fun e => (get names e.1).bind fun nm => (namedRow names lids e.2).map fun row => some (nm, row)) rt [] := by
  unfold namedRoutes build
  congr 1
  funext r e
  cases r with
  | none => rfl
  | some m =>
    simp only [Option.bind_some]
    cases get names e.1 with
    | none => rfl
    | some nm => simp only [Option.bind_some]; cases namedRow names lids e.2 <;> rfl

/-- Nodes have different LIDs, and a switch one entry for each. -/
structure Addressed (s : Snapshot) : Prop where
  lids : ((s.devices.filter (!·.switch)).map (·.lid)).Nodup
  entries : ∀ g, ((s.fdb g).map (·.1)).Nodup

theorem nodup_inj {α γ : Type} {f : α → γ} : ∀ {l : List α}, (l.map f).Nodup → ∀ {a b : α}, a ∈ l → b ∈ l → f a = f b → a = b := by
  intro l
  induction l with
  | nil => intro _ a b h; cases h
  | cons x l ih =>
    intro hn a b ha hb e
    rw [List.map_cons, List.nodup_cons] at hn
    rcases List.mem_cons.mp ha with e1 | m1 <;> rcases List.mem_cons.mp hb with e2 | m2
    · rw [e1, e2]
    · exact absurd (List.mem_map.mpr ⟨b, m2, by rw [← e, e1]⟩) hn.1
    · exact absurd (List.mem_map.mpr ⟨a, m1, by rw [e, e2]⟩) hn.1
    · exact ih hn.2 m1 m2 e

theorem lidGuids_get {s : Snapshot} (h : Addressed s) (l g : Nat) :
    get (lidGuids s) l = some g ↔ ∃ d ∈ s.devices, d.switch = false ∧ d.lid = l ∧ d.guid = g := by
  have hn : (((s.devices.filter (!·.switch)).map fun d => (d.lid, d.guid)).map (·.1)).Nodup := by rw [List.map_map]; exact h.lids
  unfold lidGuids
  rw [ofPairs_self hn, get_iff_mem hn]
  simp only [List.mem_map, List.mem_filter, Prod.mk.injEq, Bool.not_eq_true']
  constructor
  · rintro ⟨d, ⟨h1, h2⟩, h3, h4⟩; exact ⟨d, h1, h2, h3, h4⟩
  · rintro ⟨d, h1, h2, h3, h4⟩; exact ⟨d, ⟨h1, h2⟩, h3, h4⟩

theorem namedRow_get {shorten : Bool} {s : Snapshot} (hd : Distinct shorten s) (ha : Addressed s) {g : Nat} {m : Dict Name Int}
    (hm : namedRow (guidNames shorten s) (lidGuids s) (s.fdb g) = some m) (nm : Name) (i : Int) :
    get m nm = some i ↔ ∃ n ∈ s.devices, n.switch = false ∧ parseIf shorten n.name = nm ∧ ∃ p : Nat, (n.lid, p) ∈ s.fdb g ∧ i = (p : Int) - 1 := by
  rw [namedRow_build] at hm
  have hcase : ∀ (e : Nat × Nat) (k : Name) (v : Int),
      (match get (lidGuids s) e.1 with
        | none => some none
        | some g => (get (guidNames shorten s) g).map fun nm => some (nm, (e.2 : Int) - 1)) = some (some (k, v)) ↔
      ∃ n ∈ s.devices, n.switch = false ∧ n.lid = e.1 ∧ parseIf shorten n.name = k ∧ v = (e.2 : Int) - 1 := by
    intro e k v
    constructor
    · intro h
      cases h1 : get (lidGuids s) e.1 with
      | none => rw [h1] at h; cases h
      | some g' =>
        rw [h1] at h
        simp only at h
        cases h2 : get (guidNames shorten s) g' with
        | none => rw [h2] at h; cases h
        | some x =>
          rw [h2] at h
          simp only [Option.map_some, Option.some.injEq, Prod.mk.injEq] at h
          obtain ⟨n, hn, hs, hl, hg⟩ := (lidGuids_get ha _ _).mp h1
          obtain ⟨n2, hn2, hg2, hnm⟩ := (guidNames_get hd _ _).mp h2
          have : n2 = n := nodup_inj hd.guids hn2 hn (hg2.trans hg.symm)
          subst this
          exact ⟨n2, hn, hs, hl, hnm.trans h.1, h.2.symm⟩
    · rintro ⟨n, hn, hs, hl, rfl, rfl⟩
      rw [(lidGuids_get ha _ _).mpr ⟨n, hn, hs, hl, rfl⟩]
      simp only
      rw [(guidNames_get hd _ _).mpr ⟨n, hn, rfl, rfl⟩]
      rfl
  rw [build_get _ _ _ _ ?_ hm]
  · simp only [hcase, get_nil, reduceCtorEq, and_false, or_false]
    constructor
    · rintro ⟨e, he, n, hn, hs, hl, hnm, hi⟩
      exact ⟨n, hn, hs, hnm, e.2, by rw [hl]; exact he, hi⟩
    · rintro ⟨n, hn, hs, hnm, p, hp, hi⟩
      exact ⟨(n.lid, p), hp, n, hn, hs, rfl, hnm, hi⟩
  · have h' : (s.fdb g).Pairwise (fun a b => a.1 ≠ b.1) := List.pairwise_map.mp (ha.entries g)
    refine h'.imp ?_
    intro a b hab k v w h1 h2
    rw [hcase] at h1 h2
    obtain ⟨n1, hn1, _, hl1, hk1, _⟩ := h1
    obtain ⟨n2, hn2, _, hl2, hk2, _⟩ := h2
    have : n1 = n2 := nodup_inj hd.names hn1 hn2 (hk1.trans hk2.symm)
    subst this
    exact hab (hl1.symm.trans hl2)

/-- C153: the named routes of a switch lead to each node by the port of its forwarding entry, one lower, and to nothing
else. -/
theorem C153_routes_partial {shorten : Bool} {s : Snapshot} (hd : Distinct shorten s) (ha : Addressed s) {m : Dict Name (Dict Name Int)}
    (hm : namedRoutes (routingTable s) (guidNames shorten s) (lidGuids s) = some m) {sw : Device} (h : sw ∈ s.devices) (hs : sw.switch = true) :
    ∃ r, get m (parseIf shorten sw.name) = some r ∧ ∀ nm i, get r nm = some i ↔
      ∃ n ∈ s.devices, n.switch = false ∧ parseIf shorten n.name = nm ∧ ∃ p : Nat, (n.lid, p) ∈ s.fdb sw.guid ∧ i = (p : Int) - 1 := by
  have hrt : routingTable s = (s.devices.filter (·.switch)).map fun d => (d.guid, s.fdb d.guid) := by
    unfold routingTable
    rw [List.map_congr_left (g := fun d => (d.guid, s.fdb d.guid)) (fun d _ => by rw [ofPairs_self (ha.entries d.guid)])]
    apply ofPairs_self
    rw [List.map_map]
    exact List.Sublist.nodup (List.Sublist.map _ List.filter_sublist) hd.guids
  rw [namedRoutes_build, hrt] at hm
  have hmem : (sw.guid, s.fdb sw.guid) ∈ (s.devices.filter (·.switch)).map fun d => (d.guid, s.fdb d.guid) :=
    List.mem_map.mpr ⟨sw, List.mem_filter.mpr ⟨h, hs⟩, rfl⟩
  have hok := (build_ok _ _ _).mp ⟨m, hm⟩ _ hmem
  have hname := (guidNames_get hd sw.guid (parseIf shorten sw.name)).mpr ⟨sw, h, rfl, rfl⟩
  simp only [hname, Option.bind_some] at hok
  cases hr : namedRow (guidNames shorten s) (lidGuids s) (s.fdb sw.guid) with
  | none => rw [hr] at hok; exact absurd rfl hok
  | some r =>
    refine ⟨r, ?_, fun nm i => namedRow_get hd ha hr nm i⟩
    refine (build_get _ _ _ _ ?_ hm _ _).mpr (.inl ⟨_, hmem, by simp only [hname, Option.bind_some, hr, Option.map_some]⟩)
    rw [List.pairwise_map]
    have h' : (s.devices.filter (·.switch)).Pairwise (fun a b => parseIf shorten a.name ≠ parseIf shorten b.name) :=
      List.Pairwise.filter _ (List.pairwise_map.mp hd.names)
    refine List.Pairwise.imp_of_mem ?_ h'
    intro a b ha' hb' hab k v w h1 h2
    have ea := (guidNames_get hd a.guid (parseIf shorten a.name)).mpr ⟨a, (List.mem_filter.mp ha').1, rfl, rfl⟩
    have eb := (guidNames_get hd b.guid (parseIf shorten b.name)).mpr ⟨b, (List.mem_filter.mp hb').1, rfl, rfl⟩
    simp only [ea, Option.bind_some] at h1
    simp only [eb, Option.bind_some] at h2
    cases h3 : namedRow (guidNames shorten s) (lidGuids s) (s.fdb a.guid) with
    | none => rw [h3] at h1; cases h1
    | some r1 => cases h4 : namedRow (guidNames shorten s) (lidGuids s) (s.fdb b.guid) with
      | none => rw [h4] at h2; cases h2
      | some r2 =>
        rw [h3] at h1
        rw [h4] at h2
        simp only [Option.map_some, Option.some.injEq, Prod.mk.injEq] at h1 h2
        exact hab (h1.1.trans h2.1.symm)

example : Addressed exampleSnapshot ∧
    (namedRoutes (routingTable exampleSnapshot) (guidNames true exampleSnapshot) (lidGuids exampleSnapshot)).bind (fun m => get m ['s', '2']) =
      some [(['n', '1'], 2), (['n', '2'], 0)] := by
  refine ⟨⟨by decide, ?_⟩, by decide⟩
  intro g
  simp only [exampleSnapshot]
  split <;> decide

/-! ### Traces -/

/-- A route: from a device that is not the destination by the port of its forwarding table (the first if it has none) over
a cable to the next device, until the destination. -/
inductive Route (rt : Dict Nat (Dict Nat Nat)) (lt : LinkTable) (destLid dest : Nat) : Nat → List (Nat × Nat) → Prop
  | here : Route rt lt destLid dest dest []
  | hop {cur p g q : Nat} {r : List (Nat × Nat)} (hne : cur ≠ dest)
      (hp : (∃ row, get rt cur = some row ∧ get row destLid = some p) ∨ (get rt cur = none ∧ p = 1))
      (hl : look lt cur p = some (g, q)) (hr : Route rt lt destLid dest g r) :
      Route rt lt destLid dest cur ((cur, p) :: (g, q) :: r)

theorem outPort_iff (rt : Dict Nat (Dict Nat Nat)) (cur destLid p : Nat) :
    outPort rt cur destLid = some p ↔ (∃ row, get rt cur = some row ∧ get row destLid = some p) ∨ (get rt cur = none ∧ p = 1) := by
  unfold outPort
  cases get rt cur with
  | none => simp [eq_comm]
  | some row => simp

/-- C153: what is traced is a route, and each route is traced. -/
theorem C153_traced (rt : Dict Nat (Dict Nat Nat)) (lt : LinkTable) (destLid dest : Nat) (r : List (Nat × Nat)) (cur : Nat) :
    (∃ k, trace rt lt destLid dest k cur = .route r) ↔ Route rt lt destLid dest cur r := by
  constructor
  · rintro ⟨k, h⟩
    induction k generalizing cur r with
    | zero =>
      unfold trace at h
      split at h
      · next e => subst e; cases h; exact .here
      · cases h
    | succ k ih =>
      unfold trace at h
      split at h
      · next e => subst e; cases h; exact .here
      · next hne =>
        cases h1 : outPort rt cur destLid with
        | none => rw [h1] at h; cases h
        | some p =>
          rw [h1] at h
          simp only at h
          cases h2 : look lt cur p with
          | none => rw [h2] at h; cases h
          | some x =>
            rw [h2] at h
            obtain ⟨g, q⟩ := x
            simp only at h
            cases h3 : trace rt lt destLid dest k g with
            | crash => rw [h3] at h; cases h
            | running => rw [h3] at h; cases h
            | route r' =>
              rw [h3] at h
              cases h
              exact .hop hne ((outPort_iff _ _ _ _).mp h1) h2 (ih _ _ h3)
  · intro h
    induction h with
    | here => exact ⟨0, by simp [trace]⟩
    | hop hne hp hl _ ih =>
      obtain ⟨k, hk⟩ := ih
      refine ⟨k + 1, ?_⟩
      unfold trace
      rw [if_neg hne, (outPort_iff _ _ _ _).mpr hp]
      simp only [hl, hk]

theorem route_unique {rt : Dict Nat (Dict Nat Nat)} {lt : LinkTable} {destLid dest cur : Nat} {r r' : List (Nat × Nat)}
    (h : Route rt lt destLid dest cur r) (h' : Route rt lt destLid dest cur r') : r = r' := by
  induction h generalizing r' with
  | here => cases h' with
    | here => rfl
    | hop hne _ _ _ => exact absurd rfl hne
  | hop hne hp hl _ ih => cases h' with
    | here => exact absurd rfl hne
    | hop _ hp' hl' hr' =>
      have e1 := (outPort_iff _ _ _ _).mpr hp
      have e2 := (outPort_iff _ _ _ _).mpr hp'
      rw [e1] at e2
      cases e2
      rw [hl] at hl'
      cases hl'
      rw [ih hr']

/-- The devices that forward on a route: every other entry. -/
def forwarders : List (Nat × Nat) → List Nat
  | a :: _ :: r => a.1 :: forwarders r
  | _ => []

theorem route_from {rt : Dict Nat (Dict Nat Nat)} {lt : LinkTable} {destLid dest cur : Nat} {r : List (Nat × Nat)}
    (h : Route rt lt destLid dest cur r) : ∀ x ∈ forwarders r, ∃ r', Route rt lt destLid dest x r' ∧ r'.length ≤ r.length := by
  induction h with
  | here => intro x hx; cases hx
  | hop hne hp hl hr ih =>
    intro x hx
    simp only [forwarders, List.mem_cons] at hx
    rcases hx with rfl | hx
    · exact ⟨_, .hop hne hp hl hr, Nat.le_refl _⟩
    · obtain ⟨r', h1, h2⟩ := ih x hx
      exact ⟨r', h1, by simp only [List.length_cons]; omega⟩

/-- C153: a route forwards at no device twice, and there is one route at most. -/
theorem C153_visits_once {rt : Dict Nat (Dict Nat Nat)} {lt : LinkTable} {destLid dest cur : Nat} {r : List (Nat × Nat)}
    (h : Route rt lt destLid dest cur r) : (forwarders r).Nodup ∧ ∀ r', Route rt lt destLid dest cur r' → r' = r := by
  refine ⟨?_, fun r' h' => route_unique h' h⟩
  induction h with
  | here => simp [forwarders]
  | hop hne hp hl hr ih =>
    simp only [forwarders, List.nodup_cons]
    refine ⟨?_, ih⟩
    intro hm
    obtain ⟨r', h1, h2⟩ := route_from hr _ hm
    have := route_unique h1 (.hop hne hp hl hr)
    rw [this] at h2
    simp only [List.length_cons] at h2
    omega

example : trace (routingTable exampleSnapshot) (linkTable exampleSnapshot) 2 21 5 20 =
    .route [(20, 1), (10, 1), (10, 2), (11, 3), (11, 1), (21, 1)] := by decide

/-- C153, refuted: with a cycle in the forwarding tables the trace has no end. -/
theorem C153_cycle_refuted : ∃ (s : Snapshot) (destLid dest start : Nat), Wired s ∧ Distinct false s ∧ Addressed s ∧
    get (lidGuids s) destLid = some dest ∧ ∀ k, trace (routingTable s) (linkTable s) destLid dest k start = .running := by
  refine ⟨⟨[⟨10, ['s'], 0, true⟩, ⟨11, ['t'], 0, true⟩, ⟨20, ['n'], 1, false⟩], [⟨10, 1, 11, 1⟩, ⟨11, 2, 20, 1⟩], fun _ => [(1, 1)]⟩,
    1, 20, 10, ?_, ⟨by decide, by decide⟩, ⟨by decide, fun _ => (by decide : (([(1, 1)] : List (Nat × Nat)).map (·.1)).Nodup)⟩, by decide, ?_⟩
  · unfold Wired; decide
  · generalize hs : (⟨[⟨10, ['s'], 0, true⟩, ⟨11, ['t'], 0, true⟩, ⟨20, ['n'], 1, false⟩], [⟨10, 1, 11, 1⟩, ⟨11, 2, 20, 1⟩], fun _ => [(1, 1)]⟩ : Snapshot) = s
    have h1 : outPort (routingTable s) 10 1 = some 1 := by subst hs; decide
    have h2 : outPort (routingTable s) 11 1 = some 1 := by subst hs; decide
    have h3 : look (linkTable s) 10 1 = some (11, 1) := by subst hs; decide
    have h4 : look (linkTable s) 11 1 = some (10, 1) := by subst hs; decide
    have key : ∀ k, trace (routingTable s) (linkTable s) 1 20 k 10 = .running ∧ trace (routingTable s) (linkTable s) 1 20 k 11 = .running := by
      intro k
      induction k with
      | zero => exact ⟨by simp [trace], by simp [trace]⟩
      | succ k ih =>
        constructor
        · unfold trace; simp [h1, h3, ih.2]
        · unfold trace; simp [h2, h4, ih.1]
    exact fun k => (key k).1

/-- C153: each hop at a switch is the hop of the simulated switch: its named route to the destination is a port whose
destination is the next device. -/
theorem C153_simulated_partial {shorten : Bool} {s : Snapshot} (hd : Distinct shorten s) (hw : Wired s) (ha : Addressed s)
    {pre : Name} {m : Dict Name Ports} (hm : sstMap pre (guidNames shorten s) (linkTable s) = some m)
    {rm : Dict Name (Dict Name Int)} (hrm : namedRoutes (routingTable s) (guidNames shorten s) (lidGuids s) = some rm)
    {sw dest next : Device} (hsw : sw ∈ s.devices) (hs : sw.switch = true) (hpre : pre <:+: parseIf shorten sw.name)
    (hdest : dest ∈ s.devices) (hds : dest.switch = false) (hnext : next ∈ s.devices) {p q : Nat}
    (hp : (dest.lid, p) ∈ s.fdb sw.guid) (hl : look (linkTable s) sw.guid p = some (next.guid, q)) :
    ∃ r o i, get rm (parseIf shorten sw.name) = some r ∧ get r (parseIf shorten dest.name) = some i ∧
      get m (parseIf shorten sw.name) = some o ∧ get o i = some (parseIf shorten next.name, (q : Int) - 1) := by
  obtain ⟨r, hr, hroutes⟩ := C153_routes_partial hd ha hrm hsw hs
  obtain ⟨o, ho, hports⟩ := (C153_ports_partial hd hw hm hsw).2 hpre
  refine ⟨r, o, (p : Int) - 1, hr, (hroutes _ _).mpr ⟨dest, hdest, hds, rfl, p, hp, rfl⟩, ho, (hports _ _ _).mpr ?_⟩
  exact ⟨p, q, next, hnext, (C153_links_partial hw _ _ _ _).mp hl, rfl, rfl, rfl⟩

example : ((sstMap ['s'] (guidNames true exampleSnapshot) (linkTable exampleSnapshot)).isSome ∧
    (namedRoutes (routingTable exampleSnapshot) (guidNames true exampleSnapshot) (lidGuids exampleSnapshot)).isSome) ∧
      contains ['s'] (parseIf true ['s', '1']) = true ∧ (2, 2) ∈ exampleSnapshot.fdb 10 ∧
        look (linkTable exampleSnapshot) 10 2 = some (11, 3) := by decide

end Verif.Topo.Opa
