import Verif.Launch.Files
import Verif.Launch.AllocProps
import Verif.Launch.RequestProps
set_option autoImplicit false

/-!
# Theorems about allocations and mappings from boxes, files and host names
-/

namespace Verif.Launch.Files

open SST.Topo (switchAddr size InRange addr coords switchAddr_eq addr_lt)
open SST.Launch (insAll insAll_spec mem_ins)
open Verif.Os.AppEnv (Str find put find_put snoc)

/-- Coordinates of a node that exists. -/
def Net.Has (t : Net) (cs : List Nat) : Prop := InRange (t.dims ++ if 1 < t.conc then [t.conc] else []) cs

/-- In a box: each coordinate is one of `size` numbers from `offset` on. -/
def InBox : List Nat → List Nat → List Nat → Prop
  | s :: ss, o :: os, c :: cs => o ≤ c ∧ c < o + s ∧ InBox ss os cs
  | [], [], [] => True
  | _, _, _ => False

/-- The box is inside of the sizes of the network. -/
def Fits : List Nat → List Nat → List Nat → Prop
  | s :: ss, o :: os, d :: ds => o + s ≤ d ∧ Fits ss os ds
  | [], [], [] => True
  | _, _, _ => False

theorem mem_box (ss os : List Nat) (h : ss.length = os.length) (cs : List Nat) : cs ∈ box ss os ↔ InBox ss os cs := by
  induction ss generalizing os cs with
  | nil =>
    cases os with
    | nil =>
      cases cs with
      | nil => simp [box, InBox]
      | cons c cs => simp [box, InBox]
    | cons o os => simp at h
  | cons s ss ih =>
    cases os with
    | nil => simp at h
    | cons o os =>
      have h' : ss.length = os.length := by simpa using h
      unfold box
      rw [List.mem_flatMap]
      constructor
      · rintro ⟨i, hi, hm⟩
        obtain ⟨v, hv, rfl⟩ := List.mem_map.mp hm
        have := List.mem_range.mp hi
        exact ⟨by omega, by omega, (ih os h' v).mp hv⟩
      · cases cs with
        | nil => intro hb; exact hb.elim
        | cons c cs =>
          rintro ⟨h1, h2, h3⟩
          refine ⟨c - o, List.mem_range.mpr (by omega), List.mem_map.mpr ⟨cs, (ih os h' cs).mpr h3, ?_⟩⟩
          have : o + (c - o) = c := by omega
          rw [this]

theorem box_nodup (ss os : List Nat) : (box ss os).Nodup := by
  induction ss generalizing os with
  | nil => unfold box; simp
  | cons s ss ih =>
    cases os with
    | nil => unfold box; simp
    | cons o os =>
      unfold box
      rw [List.Nodup, List.pairwise_flatMap]
      constructor
      · intro i _
        rw [List.pairwise_map]
        exact (ih os).imp fun h e => h (List.cons.inj e).2
      · exact List.nodup_range.imp fun h a ha b hb e => by
          obtain ⟨v, _, rfl⟩ := List.mem_map.mp ha
          obtain ⟨w, _, rfl⟩ := List.mem_map.mp hb
          have := (List.cons.inj e).1
          omega

theorem box_length (ss os : List Nat) (h : ss.length = os.length) : (box ss os).length = size ss := by
  induction ss generalizing os with
  | nil => unfold box; rfl
  | cons s ss ih =>
    cases os with
    | nil => simp at h
    | cons o os =>
      unfold box
      rw [List.length_flatMap]
      have : ∀ l : List Nat, (l.map fun i => ((box ss os).map fun v => (o + i) :: v).length).sum = l.length * size ss := by
        intro l
        induction l with
        | nil => simp
        | cons a l ihl => rw [List.map_cons, List.sum_cons, ihl, List.length_map, ih os (by simpa using h), List.length_cons, Nat.add_mul]; omega
      rw [this, List.length_range]
      rfl

theorem fits_range (ss os ds cs : List Nat) (hf : Fits ss os ds) (hb : InBox ss os cs) : InRange ds cs := by
  induction ss generalizing os ds cs with
  | nil =>
    cases os with
    | nil =>
      cases ds with
      | nil => cases cs with
        | nil => trivial
        | cons c cs => exact hb.elim
      | cons d ds => exact hf.elim
    | cons o os => exact hf.elim
  | cons s ss ih =>
    cases os with
    | nil => exact hf.elim
    | cons o os =>
      cases ds with
      | nil => exact hf.elim
      | cons d ds =>
        cases cs with
        | nil => exact hb.elim
        | cons c cs => exact ⟨by have := hf.1; have := hb.2.1; omega, ih os ds cs hf.2 hb.2.2⟩

theorem fits_length (ss os ds : List Nat) (hf : Fits ss os ds) : ss.length = os.length ∧ ss.length = ds.length := by
  induction ss generalizing os ds with
  | nil => cases os <;> cases ds <;> first | exact ⟨rfl, rfl⟩ | exact hf.elim
  | cons s ss ih =>
    cases os with
    | nil => exact hf.elim
    | cons o os =>
      cases ds with
      | nil => exact hf.elim
      | cons d ds => have := ih os ds hf.2; simp only [List.length_cons]; omega

theorem range_append (ds es cs : List Nat) (h : InRange (ds ++ es) cs) : ∃ as bs, cs = as ++ bs ∧ InRange ds as ∧ InRange es bs := by
  induction ds generalizing cs with
  | nil => exact ⟨[], cs, rfl, trivial, h⟩
  | cons d ds ih =>
    cases cs with
    | nil => exact h.elim
    | cons c cs =>
      obtain ⟨as, bs, h1, h2, h3⟩ := ih cs h.2
      exact ⟨c :: as, bs, by rw [h1]; rfl, ⟨h.1, h2⟩, h3⟩

theorem append_range (ds es as bs : List Nat) (h : InRange ds as) (h2 : InRange es bs) : InRange (ds ++ es) (as ++ bs) := by
  induction ds generalizing as with
  | nil => cases as with
    | nil => exact h2
    | cons a as => exact h.elim
  | cons d ds ih => cases as with
    | nil => exact h.elim
    | cons a as => exact ⟨h.1, ih as h.2⟩

theorem range_length (ds cs : List Nat) (h : InRange ds cs) : cs.length = ds.length := by
  induction ds generalizing cs with
  | nil => cases cs with
    | nil => rfl
    | cons c cs => exact h.elim
  | cons d ds ih => cases cs with
    | nil => exact h.elim
    | cons c cs => simp [ih cs h.2]

theorem addr_append (ds as bs : List Nat) (h : as.length = ds.length) : addr ds (as ++ bs) = addr ds as := by
  induction ds generalizing as with
  | nil => rfl
  | cons d ds ih => cases as with
    | nil => simp at h
    | cons a as => simp only [List.cons_append, addr]; rw [ih as (by simpa using h)]

theorem addr_inj (ds as bs : List Nat) (ha : InRange ds as) (hb : InRange ds bs) (h : addr ds as = addr ds bs) : as = bs := by
  induction ds generalizing as bs with
  | nil => cases as <;> cases bs <;> first | rfl | exact ha.elim | exact hb.elim
  | cons d ds ih =>
    cases as with
    | nil => exact ha.elim
    | cons a as =>
      cases bs with
      | nil => exact hb.elim
      | cons b bs =>
        have h : a + d * addr ds as = b + d * addr ds bs := h
        have h1 : a = b := by
          have := congrArg (· % d) h
          simp only [Nat.add_mul_mod_self_left] at this
          rwa [Nat.mod_eq_of_lt ha.1, Nat.mod_eq_of_lt hb.1] at this
        have hd : 0 < d := by have := ha.1; omega
        have h2 : d * addr ds as = d * addr ds bs := by omega
        rw [h1, ih as bs ha.2 hb.2 (Nat.eq_of_mul_eq_mul_left hd h2)]

/-- What the address is. -/
theorem addr_of (t : Net) (hc : 0 < t.conc) (cs : List Nat) (h : t.Has cs) :
    ∃ as k, cs = as ++ (if 1 < t.conc then [k] else []) ∧ InRange t.dims as ∧ k < t.conc ∧ nodeAddr t cs = addr t.dims as * t.conc + k := by
  obtain ⟨as, bs, h1, h2, h3⟩ := range_append _ _ _ h
  have hl := range_length _ _ h2
  by_cases hq : 1 < t.conc
  · rw [if_pos hq] at h3
    have hb := range_length _ _ h3
    match bs, hb with
    | [k], _ =>
      refine ⟨as, k, by rw [if_pos hq]; exact h1, h2, h3.1, ?_⟩
      unfold nodeAddr
      rw [switchAddr_eq, h1, addr_append _ _ _ hl, ← hl]
      simp
  · rw [if_neg hq] at h3
    have hb := range_length _ _ h3
    match bs, hb with
    | [], _ =>
      rw [List.append_nil] at h1
      refine ⟨as, 0, by rw [if_neg hq, List.append_nil]; exact h1, h2, hc, ?_⟩
      unfold nodeAddr
      rw [switchAddr_eq, h1, ← hl]
      simp

/-- Nodes with different coordinates are different, and exist. -/
theorem C134_address (t : Net) (hc : 0 < t.conc) (a b : List Nat) (ha : t.Has a) (hb : t.Has b) : nodeAddr t a < t.nodes ∧ (nodeAddr t a = nodeAddr t b → a = b) := by
  obtain ⟨as, k, e1, r1, k1, n1⟩ := addr_of t hc a ha
  obtain ⟨bs, l, e2, r2, k2, n2⟩ := addr_of t hc b hb
  have hlt := addr_lt t.dims as r1
  constructor
  · rw [n1]
    unfold Net.nodes
    have : (addr t.dims as + 1) * t.conc ≤ size t.dims * t.conc := Nat.mul_le_mul_right _ hlt
    rw [Nat.add_mul] at this
    omega
  · intro h
    rw [n1, n2] at h
    have hk : k = l := by
      have := congrArg (· % t.conc) h
      simp only [Nat.mul_add_mod_self_right] at this
      rwa [Nat.mod_eq_of_lt k1, Nat.mod_eq_of_lt k2] at this
    have h2 : addr t.dims as * t.conc = addr t.dims bs * t.conc := by omega
    rw [e1, e2, hk, addr_inj _ _ _ r1 r2 (Nat.eq_of_mul_eq_mul_right hc h2)]

theorem map_nodup {α : Type} (f : α → Nat) (l : List α) (hl : l.Nodup) (hi : ∀ a, a ∈ l → ∀ b, b ∈ l → f a = f b → a = b) : (l.map f).Nodup := by
  induction l with
  | nil => exact List.nodup_nil
  | cons x l ih =>
    rw [List.map_cons, List.nodup_cons]
    rw [List.nodup_cons] at hl
    refine ⟨?_, ih hl.2 fun a ha b hb => hi a (by simp [ha]) b (by simp [hb])⟩
    intro hm
    obtain ⟨y, hy, he⟩ := List.mem_map.mp hm
    have := hi y (by simp [hy]) x (by simp) he
    exact hl.1 (this ▸ hy)

theorem mem_insAll (l s : List Nat) (n : Nat) : n ∈ insAll l s ↔ n ∈ l ∨ n ∈ s := by
  induction l generalizing s with
  | nil => simp [insAll]
  | cons a l ih =>
    show n ∈ insAll l (SST.Launch.ins a s) ↔ _
    rw [ih, mem_ins, List.mem_cons]
    constructor
    · rintro (h | h | h)
      · exact Or.inl (Or.inr h)
      · exact Or.inl (Or.inl h)
      · exact Or.inr h
    · rintro ((h | h) | h)
      · exact Or.inr (Or.inl h)
      · exact Or.inl h
      · exact Or.inr (Or.inr h)

theorem ins_sorted (x : Nat) (l : List Nat) (h : l.Pairwise (· < ·)) : (SST.Launch.ins x l).Pairwise (· < ·) := by
  induction l with
  | nil => unfold SST.Launch.ins; simp
  | cons y l ih =>
    rw [List.pairwise_cons] at h
    unfold SST.Launch.ins
    by_cases h1 : x < y
    · rw [if_pos h1, List.pairwise_cons, List.pairwise_cons]
      refine ⟨fun a ha => ?_, h.1, h.2⟩
      rcases List.mem_cons.mp ha with ha | ha
      · omega
      · have := h.1 a ha; omega
    · rw [if_neg h1]
      by_cases h2 : x = y
      · rw [if_pos h2, List.pairwise_cons]; exact h
      · rw [if_neg h2, List.pairwise_cons]
        refine ⟨fun a ha => ?_, ih h.2⟩
        rcases (mem_ins x a l).mp ha with ha | ha
        · omega
        · exact h.1 a ha

theorem insAll_sorted (l s : List Nat) (h : s.Pairwise (· < ·)) : (insAll l s).Pairwise (· < ·) := by
  induction l generalizing s with
  | nil => exact h
  | cons a l ih => exact ih _ (ins_sorted a s h)

theorem insAll_nodup (l : List Nat) : (insAll l []).Nodup := (insAll_sorted l [] List.Pairwise.nil).imp fun h e => by omega

theorem insAll_nil (xs : List Nat) (h : xs.Nodup) : (insAll xs []).Nodup ∧ (insAll xs []).length = xs.length ∧ ∀ n, n ∈ insAll xs [] ↔ n ∈ xs := by
  have := insAll_spec xs [] h List.nodup_nil (fun x _ => by simp)
  have h3 : ∀ n, n ∈ insAll xs [] ↔ n ∈ xs := by
    intro n
    rw [mem_insAll]
    simp
  exact ⟨this.1, by have := this.2.1; simpa using this, h3⟩

/-- A box inside of the network is allocated: exactly its nodes, each once. -/
theorem C134_box_partial (t : Net) (hc : 0 < t.conc) (sizes offsets : List Nat) (nnode : Nat) (hf : Fits sizes offsets (t.dims ++ if 1 < t.conc then [t.conc] else [])) :
    ∃ l, cartAlloc t sizes offsets nnode = some l ∧ l.Nodup ∧ l.length = size sizes ∧ (∀ n, n ∈ l ↔ ∃ cs, InBox sizes offsets cs ∧ nodeAddr t cs = n) ∧ ∀ n, n ∈ l → n < t.nodes := by
  obtain ⟨hl1, hl2⟩ := fits_length _ _ _ hf
  have hn : sizes.length = t.ncoords := by
    unfold Net.ncoords
    rw [hl2, List.length_append]
    split <;> simp
  have hhas : ∀ cs, cs ∈ box sizes offsets → t.Has cs := fun cs h => fits_range _ _ _ _ hf ((mem_box _ _ hl1 cs).mp h)
  have hnd : ((box sizes offsets).map (nodeAddr t)).Nodup := map_nodup _ _ (box_nodup _ _) fun a ha b hb => (C134_address t hc a b (hhas a ha) (hhas b hb)).2
  obtain ⟨i1, i2, i3⟩ := insAll_nil _ hnd
  have hm : ∀ n, n ∈ insAll ((box sizes offsets).map (nodeAddr t)) [] ↔ ∃ cs, InBox sizes offsets cs ∧ nodeAddr t cs = n := by
    intro n
    rw [i3, List.mem_map]
    constructor
    · rintro ⟨cs, h1, h2⟩; exact ⟨cs, (mem_box _ _ hl1 cs).mp h1, h2⟩
    · rintro ⟨cs, h1, h2⟩; exact ⟨cs, (mem_box _ _ hl1 cs).mpr h1, h2⟩
  refine ⟨_, ?_, i1, by rw [i2, List.length_map, box_length _ _ hl1], hm, ?_⟩
  · unfold cartAlloc
    rw [if_neg (by simp only [Bool.or_eq_true, decide_eq_true_eq]; omega)]
  · intro n h
    obtain ⟨cs, h1, h2⟩ := (hm n).mp h
    have := hhas cs ((mem_box _ _ hl1 cs).mpr h1)
    rw [← h2]
    exact (C134_address t hc cs cs this this).1

/-- A box of two by two in a torus of four by four with two nodes on a switch. -/
example : Fits [2, 2, 1] [1, 2, 1] [4, 4, 2] ∧ cartAlloc ⟨[4, 4], 2⟩ [2, 2, 1] [1, 2, 1] 4 = some [19, 21, 27, 29] := by
  refine ⟨?_, by decide⟩
  unfold Fits Fits Fits Fits
  decide

/-- A box that is not in the network is accepted: it has nodes whose coordinates are not in the box. -/
theorem C134_box_refuted : cartAlloc ⟨[4, 4], 1⟩ [2, 1] [3, 0] 2 = some [3, 4] ∧ SST.Topo.switchCoords [4, 4] 4 = [0, 1] ∧ ¬ InBox [2, 1] [3, 0] [0, 1] :=
  ⟨by decide, by decide, fun h => absurd h.1 (by decide)⟩

/-- The number of nodes that is asked for makes no difference. -/
theorem C134_box_size_refuted : ∃ l, cartAlloc ⟨[4, 4], 1⟩ [2, 1] [0, 0] 8 = some l ∧ l.length < 8 := ⟨[0, 1], by decide, by decide⟩

/-- A file of different coordinates of nodes gives exactly the first nodes of it. -/
theorem C134_coordinates_partial (t : Net) (hc : 0 < t.conc) (file : List (List Nat)) (nnode : Nat) (hn : file.Nodup) (hf : ∀ cs, cs ∈ file → t.Has cs) (h0 : 0 < file.length) (hl : nnode ≤ file.length) :
    ∃ l, coordAlloc t file nnode = some l ∧ l.Nodup ∧ l.length = nnode ∧ (∀ n, n ∈ l ↔ ∃ i cs, i < nnode ∧ file[i]? = some cs ∧ nodeAddr t cs = n) ∧ ∀ n, n ∈ l → n < t.nodes := by
  have hnd : ((file.take nnode).map (nodeAddr t)).Nodup := map_nodup _ _ (hn.sublist (List.take_sublist _ _)) fun a ha b hb =>
    (C134_address t hc a b (hf a (List.mem_of_mem_take ha)) (hf b (List.mem_of_mem_take hb))).2
  obtain ⟨i1, i2, i3⟩ := insAll_nil _ hnd
  have hm : ∀ n, n ∈ insAll ((file.take nnode).map (nodeAddr t)) [] ↔ ∃ i cs, i < nnode ∧ file[i]? = some cs ∧ nodeAddr t cs = n := by
    intro n
    rw [i3, List.mem_map]
    constructor
    · rintro ⟨cs, h1, h2⟩
      obtain ⟨i, hi⟩ := List.mem_iff_getElem?.mp h1
      rw [List.getElem?_take] at hi
      split at hi
      · exact ⟨i, cs, by assumption, hi, h2⟩
      · cases hi
    · rintro ⟨i, cs, h1, h2, h3⟩
      exact ⟨cs, List.mem_iff_getElem?.mpr ⟨i, by rw [List.getElem?_take, if_pos h1]; exact h2⟩, h3⟩
  refine ⟨_, ?_, i1, by rw [i2, List.length_map, List.length_take]; omega, hm, ?_⟩
  · cases file with
    | nil => simp at h0
    | cons c file =>
      have h1 := range_length _ _ (hf c (by simp))
      have h2 : c.length = t.ncoords := by
        rw [h1, List.length_append]
        unfold Net.ncoords
        split <;> simp
      unfold coordAlloc
      simp only
      rw [if_neg (by simp only [Bool.or_eq_true, decide_eq_true_eq]; omega)]
  · intro n h
    obtain ⟨i, cs, h1, h2, h3⟩ := (hm n).mp h
    have := hf cs (List.mem_of_getElem? h2)
    rw [← h3]
    exact (C134_address t hc cs cs this this).1

example : coordAlloc ⟨[4, 4], 1⟩ [[1, 2], [0, 0], [3, 3]] 2 = some [0, 9] := by decide

/-- A file that repeats coordinates gives fewer nodes than are asked for. -/
theorem C134_coordinates_refuted : coordAlloc ⟨[4, 4], 1⟩ [[1, 2], [1, 2]] 2 = some [9] := by decide

/-- Ranks are mapped to the coordinates of the lines of a file, but to as many as the file has, whatever the number of processes. -/
theorem C134_coordinate_map_partial (t : Net) (file : List (List Nat)) (nodes : List Nat) (nproc i : Nat) : (coordMap t file nodes nproc)[i]? = file[i]?.map (nodeAddr t) := by
  unfold coordMap; rw [List.getElem?_map]

theorem C134_coordinate_map_refuted : (coordMap ⟨[4, 4], 1⟩ [[1, 2]] [9] 4).length = 1 := by decide

/-- Ranks are mapped to the nodes of a file exactly if there is a node that exists for each of them. -/
theorem C134_node_id_map (numNodes : Nat) (file nodes : List Nat) (nproc : Nat) (l : List Nat) : nodeIdMap numNodes file nodes nproc = some l ↔ l = file ∧ file.length = nproc ∧ ∀ n, n ∈ file → n < numNodes := by
  unfold nodeIdMap
  by_cases h : (file.any (fun n => numNodes ≤ n) || decide (file.length ≠ nproc)) = true
  · rw [if_pos h]
    constructor
    · intro h'; cases h'
    · rintro ⟨_, h2, h3⟩
      exfalso
      simp only [Bool.or_eq_true, List.any_eq_true, decide_eq_true_eq] at h
      rcases h with ⟨n, h4, h5⟩ | h4
      · have := h3 n h4; omega
      · exact h4 h2
  · rw [if_neg h]
    simp only [Bool.or_eq_true, List.any_eq_true, decide_eq_true_eq, not_or, not_exists, not_and, Decidable.not_not] at h
    constructor
    · intro h'; cases h'; exact ⟨rfl, h.2, fun n hn => by have := h.1 n hn; omega⟩
    · rintro ⟨rfl, _, _⟩; rfl

example : nodeIdMap 16 [3, 3, 5] [3, 5] 3 = some [3, 3, 5] := by decide

/-- They may be nodes that are not allocated. -/
theorem C134_node_id_map_refuted : ∃ l, nodeIdMap 16 [7] [3] 1 = some l ∧ ¬ ∀ n, n ∈ l → n ∈ [3] := ⟨[7], by decide, by decide⟩

/-! ### Names -/

theorem digits_inj (i j : Nat) (h : Nat.toDigits 10 i = Nat.toDigits 10 j) : i = j := by
  have h1 : Nat.ofDigitChars 10 (Nat.toDigits 10 i) 0 = i := Nat.ofDigitChars_ten_toDigits
  have h2 : Nat.ofDigitChars 10 (Nat.toDigits 10 j) 0 = j := Nat.ofDigitChars_ten_toDigits
  rw [← h1, ← h2, h]

/-- Without a file, each node has a name of its own, and the name leads to the node. -/
theorem C134_default_names (numNodes i : Nat) (hi : i < numNodes) : (defaultNames numNodes).host i = ['n', 'i', 'd'] ++ Nat.toDigits 10 i ∧ (defaultNames numNodes).id ((defaultNames numNodes).host i) = some i := by
  have key : ∀ n, (∀ i, i < n → (defaultNames n).host i = ['n', 'i', 'd'] ++ Nat.toDigits 10 i ∧ find (defaultNames n).ids (['n', 'i', 'd'] ++ Nat.toDigits 10 i) = some i) := by
    intro n
    induction n with
    | zero => intro i h; omega
    | succ n ih =>
      intro i h
      have e : defaultNames (n + 1) = ⟨fun m => if m = n then ['n', 'i', 'd'] ++ Nat.toDigits 10 n else (defaultNames n).host m, put (defaultNames n).ids (['n', 'i', 'd'] ++ Nat.toDigits 10 n) n⟩ := by
        unfold defaultNames
        rw [List.range_succ, List.foldl_append]
        rfl
      rw [e]
      simp only
      rw [find_put]
      by_cases hin : i = n
      · subst hin
        rw [if_pos rfl, if_pos rfl]
        exact ⟨rfl, rfl⟩
      · have hne : ¬ (['n', 'i', 'd'] ++ Nat.toDigits 10 i = ['n', 'i', 'd'] ++ Nat.toDigits 10 n) := fun h => hin (digits_inj _ _ (List.append_cancel_left h))
        rw [if_neg hin, if_neg hne]
        exact ih i (by omega)
  have := key numNodes i hi
  exact ⟨this.1, by rw [this.1]; exact this.2⟩

theorem readHosts_inv (t : Net) (file : List (Str × List Nat)) (s : Names) (h : file.foldl (addHost t) (some ⟨fun _ => [], []⟩) = some s) (h1 : (file.map (·.1)).Nodup) (h2 : (file.map fun e => nodeAddr t e.2).Nodup) :
    ∀ e, e ∈ file → s.id e.1 = some (nodeAddr t e.2) ∧ s.host (nodeAddr t e.2) = e.1 := by
  induction file using snoc generalizing s with
  | h0 => intro e he; cases he
  | h1 l x ih =>
    rw [List.foldl_append, List.foldl_cons, List.foldl_nil] at h
    rw [List.map_append, List.nodup_append] at h1 h2
    cases hl : l.foldl (addHost t) (some ⟨fun _ => [], []⟩) with
    | none => rw [hl] at h; cases h
    | some s0 =>
      rw [hl] at h
      unfold addHost at h
      simp only at h
      split at h
      · cases h
      · cases h
        have ih := ih s0 hl h1.1 h2.1
        intro e he
        simp only [Names.id]
        rw [find_put]
        rcases List.mem_append.mp he with he | he
        · have n1 : e.1 ≠ x.1 := h1.2.2 e.1 (List.mem_map.mpr ⟨e, he, rfl⟩) x.1 (by simp)
          have n2 : nodeAddr t e.2 ≠ nodeAddr t x.2 := h2.2.2 (nodeAddr t e.2) (List.mem_map.mpr ⟨e, he, rfl⟩) (nodeAddr t x.2) (by simp)
          rw [if_neg n1, if_neg n2]
          exact ih e he
        · simp at he
          subst he
          rw [if_pos rfl, if_pos rfl]
          exact ⟨rfl, rfl⟩

/-- With a file of different names for different nodes, each name leads to its node and each of these nodes to its name. -/
theorem C134_names_partial (t : Net) (hc : 0 < t.conc) (file : List (Str × List Nat)) (s : Names) (h : readHosts t file = some s) (h1 : (file.map (·.1)).Nodup) (h2 : (file.map (·.2)).Nodup)
    (h3 : ∀ e, e ∈ file → t.Has e.2) (e : Str × List Nat) (he : e ∈ file) : s.id e.1 = some (nodeAddr t e.2) ∧ s.host (nodeAddr t e.2) = e.1 := by
  unfold readHosts at h
  split at h
  · cases h
  · refine readHosts_inv t file s h h1 ?_ e he
    have : (file.map fun e => nodeAddr t e.2) = (file.map (·.2)).map (nodeAddr t) := by rw [List.map_map]; rfl
    rw [this]
    apply map_nodup _ _ h2
    intro a ha b hb
    obtain ⟨x, hx, rfl⟩ := List.mem_map.mp ha
    obtain ⟨y, hy, rfl⟩ := List.mem_map.mp hb
    exact (C134_address t hc _ _ (h3 x hx) (h3 y hy)).2

theorem fold_none (t : Net) (l : List (Str × List Nat)) : l.foldl (addHost t) none = none := by
  induction l with
  | nil => rfl
  | cons e l ih => exact ih

theorem fold_addHost (t : Net) (l : List (Str × List Nat)) (s : Names) : l.foldl (addHost t) (some s) = none ↔ ∃ e, e ∈ l ∧ (e.1 = [] ∨ t.nodes ≤ nodeAddr t e.2) := by
  induction l generalizing s with
  | nil => simp
  | cons e l ih =>
    rw [List.foldl_cons]
    by_cases he : e.1 = [] ∨ t.nodes ≤ nodeAddr t e.2
    · have : addHost t (some s) e = none := by
        unfold addHost
        simp only
        rw [if_pos (by simpa using he)]
      rw [this, fold_none]
      exact ⟨fun _ => ⟨e, by simp, he⟩, fun _ => rfl⟩
    · have : ∃ s', addHost t (some s) e = some s' := by
        unfold addHost
        simp only
        rw [if_neg (by simpa using he)]
        exact ⟨_, rfl⟩
      obtain ⟨s', hs⟩ := this
      rw [hs, ih]
      constructor
      · rintro ⟨x, hx, h⟩; exact ⟨x, by simp [hx], h⟩
      · rintro ⟨x, hx, h⟩
        rcases List.mem_cons.mp hx with hx | hx
        · subst hx; exact absurd h he
        · exact ⟨x, hx, h⟩

/-- A file of host names is refused exactly if it has no lines, more lines than there are nodes, or a line without a name or of a node that
does not exist. -/
theorem C134_names_read (t : Net) (file : List (Str × List Nat)) :
    readHosts t file = none ↔ file = [] ∨ t.nodes < file.length ∨ ∃ e, e ∈ file ∧ (e.1 = [] ∨ t.nodes ≤ nodeAddr t e.2) := by
  unfold readHosts
  by_cases h : file = [] ∨ t.nodes < file.length
  · rw [if_pos (by simpa using h)]
    exact ⟨fun _ => h.elim Or.inl fun h => Or.inr (Or.inl h), fun _ => rfl⟩
  · rw [if_neg (by simpa using h), fold_addHost]
    exact ⟨fun h => Or.inr (Or.inr h), fun h' => h'.elim (fun h' => absurd (Or.inl h') h) fun h' => h'.elim (fun h' => absurd (Or.inr h') h) id⟩

example : ∃ s, readHosts ⟨[2], 1⟩ [(['a'], [0]), (['b'], [1])] = some s := ⟨_, rfl⟩

/-- Two names for one node: the node knows the second one only. -/
theorem C134_names_refuted : ∃ s, readHosts ⟨[4, 4], 1⟩ [(['a'], [1, 2]), (['b'], [1, 2])] = some s ∧ s.id ['a'] = some 9 ∧ s.host 9 = ['b'] := ⟨_, rfl, by decide, by decide⟩

/-- Coordinates that are not in the network name another node. -/
theorem C134_names_range_refuted : ∃ s, readHosts ⟨[4, 4], 1⟩ [(['a'], [0, 1]), (['b'], [4, 0])] = some s ∧ s.id ['b'] = s.id ['a'] := ⟨_, rfl, by decide⟩

theorem idsOf_spec (s : Names) (l : List Str) (ns : List Nat) : idsOf s l = some ns ↔ l.map s.id = ns.map some := by
  induction l generalizing ns with
  | nil =>
    cases ns with
    | nil => simp [idsOf]
    | cons n ns => simp [idsOf]
  | cons h r ih =>
    unfold idsOf
    cases hh : s.id h with
    | none =>
      cases ns with
      | nil => simp
      | cons n ns => simp [hh]
    | some m =>
      cases hr : idsOf s r with
      | none =>
        cases ns with
        | nil => simp
        | cons n ns =>
          simp only [List.map_cons, hh]
          constructor
          · intro e; cases e
          · intro e
            have := (ih ns).mpr (List.cons.inj e).2
            rw [hr] at this; cases this
      | some k =>
        have := (ih k).mp hr
        simp only
        cases ns with
        | nil => simp
        | cons n ns =>
          rw [List.map_cons, List.map_cons, hh]
          constructor
          · intro e; cases e; rw [this]
          · intro e
            have e1 := (List.cons.inj e).1
            have e2 := (ih ns).mpr (List.cons.inj e).2
            rw [hr] at e2
            cases e1; cases e2; rfl

/-- Rank `i` is on the host of line `i`, if there are enough lines and the names are known; otherwise the simulation aborts. -/
theorem C134_host_map (s : Names) (file : List Str) (nodes : List Nat) (nproc : Nat) (hu : s.id [] = none) (l : List Nat) :
    hostMap s file nodes nproc = some l ↔ l.length = nproc ∧ nproc ≤ file.length ∧ ∀ i, i < nproc → ∃ h n, file[i]? = some h ∧ s.id h = some n ∧ l[i]? = some n := by
  unfold hostMap
  rw [idsOf_spec, List.map_map]
  constructor
  · intro h
    have hlen : l.length = nproc := by have := congrArg List.length h; simpa using this.symm
    have hi : ∀ i, i < nproc → ∃ h n, file[i]? = some h ∧ s.id h = some n ∧ l[i]? = some n := by
      intro i hi
      have := congrArg (fun x => x[i]?) h
      simp only [List.getElem?_map, List.getElem?_range hi, Option.map_some, Function.comp] at this
      cases hf : file[i]? with
      | none =>
        rw [hf, Option.getD_none, hu] at this
        cases hl : l[i]? with
        | none => rw [hl] at this; cases this
        | some n => rw [hl] at this; simp at this
      | some g =>
        rw [hf, Option.getD_some] at this
        cases hl : l[i]? with
        | none => rw [hl] at this; cases this
        | some n =>
          rw [hl] at this
          simp only [Option.map_some, Option.some.injEq] at this
          exact ⟨g, n, rfl, this, rfl⟩
    refine ⟨hlen, ?_, hi⟩
    cases nproc with
    | zero => omega
    | succ k =>
      obtain ⟨g, n, h1, _⟩ := hi k (by omega)
      have := (List.getElem?_eq_some_iff.mp h1).1
      omega
  · rintro ⟨h1, h2, h3⟩
    apply List.ext_getElem?
    intro i
    rw [List.getElem?_map, List.getElem?_map]
    by_cases hi : i < nproc
    · obtain ⟨g, n, g1, g2, g3⟩ := h3 i hi
      rw [List.getElem?_range hi, g3]
      simp only [Option.map_some, Function.comp, g1, Option.getD_some, g2]
    · rw [List.getElem?_eq_none (by simp; omega), List.getElem?_eq_none (by omega)]
      rfl

/-- Two ranks on two of four nodes. -/
example : hostMap (defaultNames 4) [['n', 'i', 'd', '2'], ['n', 'i', 'd', '0']] [] 2 = some [2, 0] ∧ (defaultNames 4).id [] = none := by decide +kernel

/-- All hosts of a file are allocated, however few nodes are asked for. -/
theorem C134_hosts_refuted : ∃ l, hostAlloc (defaultNames 4) [['n', 'i', 'd', '2'], ['n', 'i', 'd', '0']] 1 = some l ∧ l.length = 2 := ⟨[0, 2], by decide +kernel, by decide⟩

/-- The nodes that are allocated are exactly those of the hosts of the file, each once; one name that is not known aborts. -/
theorem C134_hosts (s : Names) (file : List Str) (nnode : Nat) :
    (∀ l, hostAlloc s file nnode = some l → l.Nodup ∧ ∀ n, n ∈ l ↔ ∃ g, g ∈ file ∧ s.id g = some n) ∧ (hostAlloc s file nnode = none ↔ ∃ g, g ∈ file ∧ s.id g = none) := by
  unfold hostAlloc
  constructor
  · intro l h
    cases hi : idsOf s file with
    | none => rw [hi] at h; cases h
    | some ns =>
      rw [hi] at h
      cases h
      have hid := (idsOf_spec s file ns).mp hi
      refine ⟨insAll_nodup ns, fun n => ?_⟩
      rw [mem_insAll]
      constructor
      · rintro (h | h)
        · have hm : some n ∈ file.map s.id := by rw [hid]; exact List.mem_map.mpr ⟨n, h, rfl⟩
          obtain ⟨g, h1, h2⟩ := List.mem_map.mp hm
          exact ⟨g, h1, h2⟩
        · cases h
      · rintro ⟨g, h1, h2⟩
        have hm : some n ∈ ns.map some := by rw [← hid]; exact List.mem_map.mpr ⟨g, h1, h2⟩
        obtain ⟨m, h3, h4⟩ := List.mem_map.mp hm
        cases h4
        exact Or.inl h3
  · rw [Option.map_eq_none_iff]
    induction file with
    | nil => simp [idsOf]
    | cons g r ih =>
      unfold idsOf
      cases hg : s.id g with
      | none => simp [hg]
      | some n =>
        cases hr : idsOf s r with
        | none =>
          obtain ⟨x, h1, h2⟩ := ih.mp hr
          simp only [true_iff]
          exact ⟨x, List.mem_cons_of_mem _ h1, h2⟩
        | some k =>
          simp only [reduceCtorEq, false_iff]
          rintro ⟨x, h1, h2⟩
          rcases List.mem_cons.mp h1 with h1 | h1
          · rw [h1, hg] at h2; cases h2
          · have := ih.mpr ⟨x, h1, h2⟩
            rw [hr] at this; cases this

/-- Names that are known, and one that is not. -/
example : hostAlloc (defaultNames 4) [['n', 'i', 'd', '2'], ['n', 'i', 'd', '0'], ['n', 'i', 'd', '2']] 3 = some [0, 2] ∧ hostAlloc (defaultNames 4) [['n', 'i', 'd', '4']] 1 = none := by decide +kernel

/-! ### Coordinates of nodes -/

/-- The coordinates of a node lead back to the node, and are those of a node that exists. -/
theorem C134_coords (t : Net) (hc : 0 < t.conc) (hd : ∀ D, D ∈ t.dims → 0 < D) (n : Nat) (hn : n < t.nodes) : t.Has (nodeCoords t n) ∧ nodeAddr t (nodeCoords t n) = n := by
  unfold Net.nodes at hn
  unfold nodeCoords nodeAddr Net.Has
  by_cases h1 : t.conc = 1
  · rw [if_pos h1, if_neg (by omega), List.append_nil, switchAddr_eq, SST.Topo.switchCoords_eq, h1]
    rw [h1, Nat.mul_one] at hn
    refine ⟨SST.Topo.coords_inRange hd n, ?_⟩
    rw [SST.Topo.addr_coords _ _ hn, List.getElem?_eq_none (by rw [SST.Topo.coords_length]; exact Nat.le_refl _)]
    simp
  · have hq : n / t.conc < size t.dims := Nat.div_lt_of_lt_mul (by rw [Nat.mul_comm]; exact hn)
    have hl := SST.Topo.coords_length t.dims (n / t.conc)
    rw [if_neg h1, if_pos (by omega), switchAddr_eq, SST.Topo.switchCoords_eq, addr_append _ _ _ hl, SST.Topo.addr_coords _ _ hq]
    refine ⟨append_range _ _ _ _ (SST.Topo.coords_inRange hd _) ⟨Nat.mod_lt _ hc, trivial⟩, ?_⟩
    rw [← hl, List.getElem?_append_right (Nat.le_refl _), Nat.sub_self]
    have := Nat.div_add_mod n t.conc
    rw [Nat.mul_comm] at this
    simpa using this

/-- The torus of four by four with two nodes on a switch. -/
example : nodeCoords ⟨[4, 4], 2⟩ 19 = [1, 2, 1] ∧ nodeAddr ⟨[4, 4], 2⟩ [1, 2, 1] = 19 ∧ 19 < (⟨[4, 4], 2⟩ : Net).nodes := by decide

end Verif.Launch.Files
