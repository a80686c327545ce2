import Verif.Mpi.CommLemmas
/-!
C23–C27: groups, communicator split, Cartesian communicators and collective tags.
The model is Comm.lean.
-/
set_option autoImplicit false
namespace SST.Mpi.Comm

/-! ### C23 Group operations preserve rank identity -/

/-- Specification: the processes of a group in rank order. -/
def Group.members : Group → List Int
  | .world n => (List.range n).map Int.ofNat
  | .tasks l => l

/-- Specification (MPI standard): the ranks denoted by a range triple, i.e.
first, first + stride, …, first + ⌊(last - first)/stride⌋ stride. -/
def rangeRanks (t : Int × Int × Int) : List Int :=
  (List.range (((t.2.1 - t.1).tdiv t.2.2).toNat + 1)).map (fun (i : Nat) => t.1 + i * t.2.2)

/-- A range triple the call accepts. -/
def RangeOk (t : Int × Int × Int) : Prop := (0 < t.2.2 ∧ t.1 ≤ t.2.1) ∨ (t.2.2 < 0 ∧ t.2.1 ≤ t.1)

instance (t : Int × Int × Int) : Decidable (RangeOk t) := by unfold RangeOk; infer_instance

theorem at_members (g : Group) (r : Nat) (t : Int) (h : g.members[r]? = some t) : g.at r = some t := by
  cases g with
  | world n =>
    simp only [Group.members, List.getElem?_map] at h
    obtain ⟨x, hx, rfl⟩ := Option.map_eq_some_iff.mp h
    have := List.getElem?_eq_some_iff.mp hx
    obtain ⟨h1, h2⟩ := this
    simp at h2
    subst h2
    rfl
  | tasks l => simp only [Group.members] at h; simp [Group.at, h]

theorem size_members (g : Group) : g.size = g.members.length := by
  cases g <;> simp [Group.size, Group.members]

/-- Including a list of valid ranks gives a group of that size whose i-th process is the
process of the i-th listed rank.  The call succeeds whenever the ranks are valid and not
more than the group has. -/
theorem C23_incl (g : Group) (ranks : List Int) (hn : ranks.length ≤ g.members.length)
    (hr : ∀ r ∈ ranks, 0 ≤ r ∧ r < g.members.length) :
    ∃ g', groupIncl g ranks = .ok g' ∧ g'.size = ranks.length ∧
      g'.members.length = ranks.length ∧
      ∀ (i : Nat) (r : Int), ranks[i]? = some r → g'.members[i]? = g.members[r.toNat]? := by
  have hat : ∀ r ∈ ranks, g.at r = g.members[r.toNat]? ∧ (g.members[r.toNat]?).isSome := by
    intro r h
    obtain ⟨h0, h1⟩ := hr r h
    have hlt : r.toNat < g.members.length := by omega
    have := at_members g r.toNat _ (List.getElem?_eq_getElem hlt)
    rw [Int.toNat_of_nonneg h0] at this
    rw [this, List.getElem?_eq_getElem hlt]
    simp
  have hsome := (atAll_some g ranks).mpr (fun r h => by rw [(hat r h).1]; exact (hat r h).2)
  obtain ⟨ts, hts⟩ := Option.isSome_iff_exists.mp hsome
  obtain ⟨hl, hi⟩ := atAll_spec g ranks ts hts
  refine ⟨.tasks ts, ?_, hl, hl, ?_⟩
  · unfold groupIncl
    rw [if_neg (by rw [size_members]; omega), hts]
  · intro i r h
    rw [← (hat r (List.mem_of_getElem? h)).1]
    exact hi i r h

example : (∀ r ∈ ([2, 0] : List Int), (0 : Int) ≤ r ∧ r < (Group.tasks [5, 6, 7]).members.length) ∧
    groupIncl (.tasks [5, 6, 7]) [2, 0] = .ok (.tasks [7, 5]) := ⟨by decide, by rfl⟩

/-- A group made from a list is rejected if a rank is out of range or the list is longer
than the group. -/
theorem C23_incl_rejects (l ranks : List Int)
    (h : l.length < ranks.length ∨ ∃ r ∈ ranks, r < 0 ∨ (l.length : Int) ≤ r) :
    ∃ e, groupIncl (.tasks l) ranks = .error e := by
  unfold groupIncl
  by_cases hn : ranks.length > (Group.tasks l).size
  · exact ⟨_, if_pos hn⟩
  · rw [if_neg hn]
    rcases h with h | ⟨r, hr, hb⟩
    · simp only [Group.size] at hn; omega
    · cases ha : atAll (.tasks l) ranks with
      | none => exact ⟨_, rfl⟩
      | some ts =>
        have := (atAll_some (.tasks l) ranks).mp (by rw [ha]; rfl) r hr
        simp only [Group.at] at this
        split at this
        · rename_i h0
          rw [List.getElem?_eq_none (by omega)] at this
          simp at this
        · simp at this

example : ∃ e, groupIncl (.tasks [4, 5]) [0, 2] = .error e :=
  C23_incl_rejects [4, 5] [0, 2] (Or.inr ⟨2, by simp, Or.inr (by decide)⟩)

theorem rangeOne_spec (t : Int × Int × Int) (h : RangeOk t) : rangeOne t.1 t.2.1 t.2.2 = .ok (rangeRanks t) := by
  obtain ⟨a, b, c⟩ := t
  simp only [RangeOk] at h
  unfold rangeOne rangeRanks
  simp only
  rcases h with ⟨hc, hab⟩ | ⟨hc, hab⟩
  · rw [if_neg (by omega), if_neg (by omega), if_neg (by omega)]
    congr 1
    have hq : (b - a).tdiv c = (b - a) / c := Int.tdiv_eq_ediv_of_nonneg (by omega)
    have h0 : 0 ≤ (b - a) / c := Int.ediv_nonneg (by omega) (by omega)
    have h1 : (b - a) / c * c ≤ b - a := Int.ediv_mul_le _ (by omega)
    have h2 : b - a < ((b - a) / c + 1) * c := Int.lt_ediv_add_one_mul_self _ hc
    rw [hq]
    refine rangeUp_spec b c hc ((b - a) / c).toNat a ?_ ?_
    · rw [Int.toNat_of_nonneg h0]; omega
    · rw [Int.toNat_of_nonneg h0]; omega
  · rw [if_pos hc, if_neg (by omega)]
    congr 1
    have hq : (b - a).tdiv c = (a - b) / (-c) := by
      rw [← Int.tdiv_eq_ediv_of_nonneg (by omega), Int.tdiv_neg, ← Int.neg_tdiv]
      congr 1
      omega
    have h0 : 0 ≤ (a - b) / (-c) := Int.ediv_nonneg (by omega) (by omega)
    have h1 : (a - b) / (-c) * (-c) ≤ a - b := Int.ediv_mul_le _ (by omega)
    have h2 : a - b < ((a - b) / (-c) + 1) * (-c) := Int.lt_ediv_add_one_mul_self _ (by omega)
    rw [hq]
    rw [Int.mul_neg] at h1 h2
    refine rangeDown_spec b c hc ((a - b) / (-c)).toNat a ?_ ?_
    · rw [Int.toNat_of_nonneg h0]; omega
    · rw [Int.toNat_of_nonneg h0]; omega

/-- Including ranges is including the ranks the MPI standard says they denote, in order;
the other ranges are rejected, except that a stride of zero never returns. -/
theorem C23_range (g : Group) (ranges : List (Int × Int × Int)) (h : ∀ t ∈ ranges, RangeOk t) :
    groupRangeIncl g ranges = groupIncl g (ranges.map rangeRanks).flatten := by
  have : rangeAll ranges = .ok (ranges.map rangeRanks).flatten := by
    induction ranges with
    | nil => rfl
    | cons t ts ih =>
      obtain ⟨a, b, c⟩ := t
      unfold rangeAll
      have h1 := rangeOne_spec (a, b, c) (h _ (by simp))
      simp only at h1
      rw [h1, ih (fun t ht => h t (by simp [ht]))]
      simp
  unfold groupRangeIncl
  rw [this]

example : RangeOk (7, 2, -2) ∧ rangeRanks (7, 2, -2) = [7, 5, 3] ∧ RangeOk (0, 5, 3) ∧
    rangeRanks (0, 5, 3) = [0, 3] := by decide +kernel

/-- A zero stride does not terminate. -/
theorem C23_range_zero_stride_refuted :
    groupRangeIncl (.world 8) [(2, 2, 0)] = .error .forever := by rfl

/-- Translation: the rank of the same process in the other group, or undefined if the other
group lacks the process; `MPI_PROC_NULL` is kept.  `n` is the number of processes of the
job. -/
theorem C23_translate (n : Nat) (g other : Group)
    (ho : ∀ m, other = .world m → m = n) (hp : ∀ t ∈ g.members, 0 ≤ t ∧ t < n) (r : Nat) (t : Int)
    (ht : g.members[r]? = some t) :
    ∃ r', g.translate other r = some r' ∧
      (t ∈ other.members → 0 ≤ r' ∧ other.members[r'.toNat]? = some t) ∧
      (t ∉ other.members → r' = undefined) := by
  have hin := hp t (List.mem_of_getElem? ht)
  have htr : g.translate other r = some (other.rankOf t) := by
    unfold Group.translate
    rw [if_neg (by unfold procNull; omega)]
    have hat := at_members g r t ht
    cases g with
    | world m => simp only [Group.at, Option.some.injEq] at hat; simp [hat]
    | tasks l => simp only [Group.members] at ht; simp [ht]
  refine ⟨_, htr, ?_, ?_⟩
  · intro hm
    cases other with
    | world m =>
      have := ho m rfl
      subst this
      simp only [Group.rankOf, Group.members]
      refine ⟨hin.1, ?_⟩
      simp only [List.getElem?_map]
      rw [List.getElem?_range (by omega)]
      simp
      omega
    | tasks l =>
      simp only [Group.rankOf, Group.members] at hm ⊢
      rcases findTask_spec t l 0 with ⟨h1, _⟩ | ⟨j, h1, h2, _⟩
      · exact absurd hm h1
      · rw [h2]
        simpa using h1
  · intro hm
    cases other with
    | world m =>
      have := ho m rfl
      subst this
      exfalso
      apply hm
      simp only [Group.members, List.mem_map, List.mem_range]
      exact ⟨t.toNat, by omega, by simp; omega⟩
    | tasks l =>
      simp only [Group.rankOf, Group.members] at hm ⊢
      rcases findTask_spec t l 0 with ⟨_, h2⟩ | ⟨j, h1, _⟩
      · exact h2
      · exact absurd (List.mem_of_getElem? h1) hm

example : Group.translate (.tasks [5, 3, 1]) (.tasks [1, 2, 3]) 1 = some 2 ∧
    Group.translate (.tasks [5, 3, 1]) (.tasks [1, 2, 3]) 0 = some undefined ∧
    Group.translate (.tasks [5, 3, 1]) (.world 6) 0 = some 5 := by decide

/-- `MPI_PROC_NULL` is translated to itself. -/
theorem C23_translate_null (g other : Group) : g.translate other procNull = some procNull := by
  simp [Group.translate]

/-- Translating there and back is the identity on distinct processes present in both. -/
theorem C23_translate_back (n : Nat) (g other : Group) (hg : ∀ m, g = .world m → m = n)
    (ho : ∀ m, other = .world m → m = n) (hp : ∀ t ∈ g.members, 0 ≤ t ∧ t < n)
    (hd : g.members.Nodup) (r : Nat) (t : Int) (ht : g.members[r]? = some t) (hm : t ∈ other.members) :
    ∃ r', g.translate other r = some r' ∧ other.translate g r' = some (r : Int) := by
  obtain ⟨r', h1, h2, _⟩ := C23_translate n g other ho hp r t ht
  obtain ⟨h3, h4⟩ := h2 hm
  refine ⟨r', h1, ?_⟩
  have htr : other.translate g r' = some (g.rankOf t) := by
    unfold Group.translate
    rw [if_neg (by unfold procNull; omega)]
    have hat := at_members other r'.toNat t h4
    cases other with
    | world m =>
      simp only [Group.at, Option.some.injEq] at hat
      rw [Int.toNat_of_nonneg h3] at hat
      simp [hat]
    | tasks l => simp only [Group.members] at h4; simp [h4, h3]
  rw [htr]
  congr 1
  cases g with
  | world m =>
    simp only [Group.members, List.getElem?_map] at ht
    obtain ⟨x, hx, rfl⟩ := Option.map_eq_some_iff.mp ht
    obtain ⟨h5, h6⟩ := List.getElem?_eq_some_iff.mp hx
    simp at h6
    subst h6
    rfl
  | tasks l =>
    simp only [Group.rankOf, Group.members] at ht hd ⊢
    rcases findTask_spec t l 0 with ⟨h5, _⟩ | ⟨j, h5, h6, _⟩
    · exact absurd (List.mem_of_getElem? ht) h5
    · rw [h6]
      obtain ⟨a1, a2⟩ := List.getElem?_eq_some_iff.mp h5
      obtain ⟨b1, b2⟩ := List.getElem?_eq_some_iff.mp ht
      have := (List.getElem_inj hd).mp (a2.trans b2.symm)
      omega

example : ∃ r', Group.translate (.tasks [5, 3, 1]) (.tasks [1, 2, 3]) 1 = some r' ∧
    Group.translate (.tasks [1, 2, 3]) (.tasks [5, 3, 1]) r' = some 1 := ⟨2, by decide⟩

/-! ### C24 MPI_Comm_split partitions the parent communicator -/

/-- A process with a valid color gets a communicator whose members are exactly the
processes of that color, each once, ordered by key and then by parent rank; its own rank is
its place in that order. -/
theorem C24_members (tbl : List Entry) (me : Nat) (e : Entry) (h : tbl[me]? = some e)
    (hc : 0 ≤ e.color) :
    ∃ s, commSplit tbl me = some s ∧
      (∀ (r : Nat), r ∈ s.members ↔ ∃ e', tbl[r]? = some e' ∧ e'.color = e.color) ∧
      s.members.Pairwise (fun a b => ∃ ea eb, tbl[a]? = some ea ∧ tbl[b]? = some eb ∧
        (ea.key < eb.key ∨ (ea.key = eb.key ∧ a < b))) ∧
      ∃ (i : Nat), s.myRank = some i ∧ s.members[i]? = some me := by
  refine ⟨_, commSplit_some tbl me e h hc, membersOf_mem tbl _ hc, membersOf_sorted tbl _, ?_⟩
  have hm : me ∈ membersOf tbl e.color := (membersOf_mem tbl _ hc me).mpr ⟨e, h, rfl⟩
  simp only
  cases hx : (membersOf tbl e.color).idxOf? me with
  | none => rw [List.idxOf?_eq_none_iff] at hx; exact absurd hm hx
  | some i =>
    refine ⟨i, rfl, ?_⟩
    have := List.findIdx?_eq_some_iff_getElem.mp hx
    obtain ⟨h1, h2, _⟩ := this
    rw [List.getElem?_eq_getElem h1]
    simpa using h2

example : commSplit [⟨2, 1, 5⟩, ⟨3, 0, 0⟩, ⟨2, 1, -1⟩, ⟨2, 1, 5⟩, ⟨7, -1, 0⟩] 3 =
    some ⟨7, [2, 0, 3], some 2, 8⟩ := by decide +kernel

/-- A process appears at most once in the new communicator. -/
theorem C24_no_duplicates (tbl : List Entry) (me : Nat) (s : Split) (h : commSplit tbl me = some s) :
    s.members.Nodup := by
  have hex : ∃ e, tbl[me]? = some e ∧ 0 ≤ e.color := by
    unfold commSplit at h
    cases ht : tbl[me]? with
    | none => rw [ht] at h; simp at h
    | some e =>
      rw [ht] at h
      simp only at h
      by_cases hc : e.color < 0
      · rw [if_pos hc] at h; simp at h
      · exact ⟨e, rfl, by omega⟩
  obtain ⟨e, he, hc⟩ := hex
  obtain ⟨s', h1, _, h3, _⟩ := C24_members tbl me e he hc
  rw [h] at h1
  simp only [Option.some.injEq] at h1
  subst h1
  refine h3.imp ?_
  rintro a b ⟨ea, eb, ha, hb, hk⟩ rfl
  rw [ha] at hb
  simp only [Option.some.injEq] at hb
  subst hb
  omega

example : ∃ s, commSplit [⟨2, 1, 5⟩, ⟨3, 0, 0⟩] 0 = some s := ⟨⟨3, [0], some 0, 4⟩, by decide +kernel⟩

/-- All members of a new communicator compute the same members, the same id and the same
next id; a process of another color is not a member. -/
theorem C24_agreement (tbl : List Entry) (a b : Nat) (sa sb : Split)
    (ha : commSplit tbl a = some sa) (hb : commSplit tbl b = some sb) (hm : b ∈ sa.members) :
    sa.members = sb.members ∧ sa.id = sb.id ∧ sa.nextId = sb.nextId := by
  unfold commSplit at ha hb
  cases hta : tbl[a]? with
  | none => rw [hta] at ha; simp at ha
  | some ea =>
    cases htb : tbl[b]? with
    | none => rw [htb] at hb; simp at hb
    | some eb =>
      rw [hta] at ha
      rw [htb] at hb
      simp only at ha hb
      by_cases hca : ea.color < 0
      · rw [if_pos hca] at ha; simp at ha
      by_cases hcb : eb.color < 0
      · rw [if_pos hcb] at hb; simp at hb
      rw [if_neg hca] at ha
      rw [if_neg hcb] at hb
      simp only [Option.some.injEq] at ha hb
      subst ha hb
      obtain ⟨e', h1, h2⟩ := (membersOf_mem tbl ea.color (by omega) b).mp hm
      rw [htb] at h1
      simp only [Option.some.injEq] at h1
      subst h1
      simp only [h2, and_self]

example : ∃ sa sb, commSplit [⟨2, 1, 5⟩, ⟨3, 0, 0⟩, ⟨4, 1, 1⟩] 0 = some sa ∧
    commSplit [⟨2, 1, 5⟩, ⟨3, 0, 0⟩, ⟨4, 1, 1⟩] 2 = some sb ∧ 2 ∈ sa.members :=
  ⟨⟨4, [2, 0], some 1, 5⟩, ⟨4, [2, 0], some 0, 5⟩, by decide +kernel⟩

/-- A process with a negative color gets `MPI_COMM_NULL` and is in nobody's communicator. -/
theorem C24_null (tbl : List Entry) (me : Nat) (e : Entry) (h : tbl[me]? = some e) (hc : e.color < 0) :
    commSplit tbl me = none ∧ ∀ other s, commSplit tbl other = some s → me ∉ s.members := by
  refine ⟨by unfold commSplit; rw [h]; simp [hc], ?_⟩
  intro other s hs hm
  unfold commSplit at hs
  cases hto : tbl[other]? with
  | none => rw [hto] at hs; simp at hs
  | some eo =>
    rw [hto] at hs
    simp only at hs
    by_cases hco : eo.color < 0
    · rw [if_pos hco] at hs; simp at hs
    rw [if_neg hco] at hs
    simp only [Option.some.injEq] at hs
    subst hs
    obtain ⟨e', h1, h2⟩ := (membersOf_mem tbl eo.color (by omega) me).mp hm
    rw [h] at h1
    simp only [Option.some.injEq] at h1
    subst h1
    omega

example : commSplit [⟨2, 1, 5⟩, ⟨3, -5, 0⟩] 1 = none := by decide +kernel

/-- The id chosen by the split is the largest next id of all callers, and the members
continue after it. -/
theorem C24_split_id (tbl : List Entry) (me : Nat) (s : Split) (h : commSplit tbl me = some s)
    (hid : ∀ e ∈ tbl, 0 ≤ e.nextId) :
    (∀ e ∈ tbl, e.nextId ≤ s.id) ∧ (∃ e ∈ tbl, s.id = e.nextId) ∧ s.nextId = s.id + 1 := by
  unfold commSplit at h
  cases ht : tbl[me]? with
  | none => rw [ht] at h; simp at h
  | some e =>
    rw [ht] at h
    simp only at h
    by_cases hc : e.color < 0
    · rw [if_pos hc] at h; simp at h
    rw [if_neg hc] at h
    simp only [Option.some.injEq] at h
    subst h
    obtain ⟨h1, h2, h3⟩ := maxId_spec tbl (-1)
    refine ⟨h2, ?_, rfl⟩
    rcases h3 with h3 | h3
    · have hm := List.mem_of_getElem? ht
      have := h2 e hm
      have := hid e hm
      simp only at *
      omega
    · exact h3

example : ∃ s, commSplit [⟨2, 1, 5⟩, ⟨9, -5, 0⟩] 0 = some s ∧ s.id = 9 :=
  ⟨⟨9, [0], some 0, 10⟩, by decide +kernel⟩

/-- Over any history of communicator creations and splits, by any sets of processes, two
different communicators that share a process have different ids. -/
theorem C24_ids_distinct (n : Nat) (ops : List CommOp) :
    ((ops.foldl Ids.step (Ids.init n)).comms).Pairwise
      (fun a b => ∀ t, t ∈ a.2 → t ∈ b.2 → a.1 ≠ b.1) := by
  suffices h : IdsOk (ops.foldl Ids.step (Ids.init n)) from h.2
  have h0 : IdsOk (Ids.init n) := by
    refine ⟨?_, by simp [Ids.init]⟩
    intro c hc t _
    simp [Ids.init] at hc
    subst hc
    simp [Ids.init]
  generalize Ids.init n = s at h0
  induction ops generalizing s with
  | nil => exact h0
  | cons op ops ih => exact ih _ (h0.step op)

example : ([CommOp.split [0, 1, 2] (fun t => if t = 1 then 1 else 0), .createGroup [0, 2],
      .create [0, 1, 2] [1, 2]].foldl Ids.step (Ids.init 3)).comms =
    [(0, [0, 1, 2]), (2, [0, 2]), (2, [1]), (3, [0, 2]), (4, [1, 2])] := by decide +kernel

/-! ### C25 Cartesian coordinates and ranks are inverse -/

/-- Rank to coordinates and back. -/
theorem C25_rank_roundtrip (dims : List Nat) (r : Nat) (hr : r < dims.foldr (· * ·) 1) :
    cartRank 1 dims (setCoords 1 r dims) = r := by
  rw [cartRank_setCoords dims 1 r (by omega)]
  simp only [Nat.div_one, Nat.one_mul]
  exact Nat.mod_eq_of_lt hr

example : 17 < [3, 4, 2].foldr (· * ·) 1 ∧ setCoords 1 17 [3, 4, 2] = [2, 1, 1] := by decide

/-- Coordinates to rank and back; the rank is inside the communicator. -/
theorem C25_coords_roundtrip (dims coords : List Nat) (hl : coords.length = dims.length)
    (hb : ∀ (i : Nat) (c d : Nat), coords[i]? = some c → dims[i]? = some d → c < d) :
    setCoords 1 (cartRank 1 dims coords) dims = coords ∧
      cartRank 1 dims coords < dims.foldr (· * ·) 1 := by
  refine ⟨?_, ?_⟩
  · have := setCoords_cartRank dims coords 1 0 (by omega) (by omega) hl hb
    simpa using this
  · have := cartRank_lt dims coords 1 (by omega) hl hb
    simp only [Nat.one_mul, cells] at this
    omega

example : cartRank 1 [3, 4, 2] [2, 1, 1] = 17 := by decide

/-- Every coordinate computed from a rank is inside its extent. -/
theorem C25_coords_in_range (dims : List Nat) (r : Nat) (hd : ∀ d ∈ dims, 0 < d) :
    (setCoords 1 r dims).length = dims.length ∧
    ∀ (i : Nat) (c d : Nat), (setCoords 1 r dims)[i]? = some c → dims[i]? = some d → c < d :=
  ⟨setCoords_length 1 r dims, setCoords_lt dims 1 r hd⟩

example : ∀ d ∈ [3, 4, 2], 0 < d := by decide

/-! ### C26 Cartesian shift -/

theorem shift_at (dims : List Nat) (me dir d : Nat) (c' : Int)
    (hd : ∀ x ∈ dims, 0 < x) (hdir : dims[dir]? = some d)
    (h0 : 0 ≤ c') (h1 : c' < d) :
    ∃ (r : Nat), cartRankI 1 dims (((setCoords 1 me dims).map Int.ofNat).set dir c') = (r : Int) ∧
      r < dims.foldr (· * ·) 1 ∧ setCoords 1 r dims = (setCoords 1 me dims).set dir c'.toNat := by
  have hset : ((setCoords 1 me dims).map Int.ofNat).set dir c' =
      ((setCoords 1 me dims).set dir c'.toNat).map Int.ofNat := by
    rw [List.map_set]
    congr 1
    simp
    omega
  refine ⟨cartRank 1 dims ((setCoords 1 me dims).set dir c'.toNat), ?_, ?_⟩
  · rw [hset]
    exact_mod_cast cartRankI_ofNat dims _ 1
  · have hl : ((setCoords 1 me dims).set dir c'.toNat).length = dims.length := by
      simp [setCoords_length]
    have hb : ∀ (i : Nat) (c x : Nat), ((setCoords 1 me dims).set dir c'.toNat)[i]? = some c →
        dims[i]? = some x → c < x := by
      intro i c x hc hx
      rw [List.getElem?_set] at hc
      split at hc
      · rename_i hi
        subst hi
        rw [hdir] at hx
        split at hc
        · simp at hc hx; omega
        · simp at hc
      · exact setCoords_lt dims 1 me hd i c x hc hx
    obtain ⟨h2, h3⟩ := C25_coords_roundtrip dims _ hl hb
    exact ⟨h3, h2⟩

/-- A shift that stays inside the grid, or that leaves it in a periodic dimension by a
displacement of at most the extent below zero (any amount above), returns the rank whose
coordinate in that dimension is displaced modulo the extent and whose other coordinates are
unchanged.  Missing: displacements that reach below minus the extent (C26_shift_refuted). -/
theorem C26_shift_partial (dims : List Nat) (periods : List Bool) (me dir d c : Nat) (dis : Int)
    (p : Bool) (hd : ∀ x ∈ dims, 0 < x) (hdir : dims[dir]? = some d) (hp : periods[dir]? = some p)
    (hc : (setCoords 1 me dims)[dir]? = some c)
    (hin : (0 ≤ c + dis ∧ c + dis < d) ∨ (p = true ∧ -(d : Int) ≤ c + dis)) :
    ∃ (r : Nat), cartShift dims periods me dir dis = some (r : Int) ∧
      r < dims.foldr (· * ·) 1 ∧
      setCoords 1 r dims = (setCoords 1 me dims).set dir (((c + dis) % d).toNat) := by
  have hd0 : 0 < d := hd d (List.mem_of_getElem? hdir)
  have hcd : ((setCoords 1 me dims).map Int.ofNat).getD dir 0 = c := by
    simp [List.getD_eq_getElem?_getD, hc]
  have hm0 : 0 ≤ ((c : Int) + dis) % d := Int.emod_nonneg _ (by omega)
  have hm1 : ((c : Int) + dis) % d < d := Int.emod_lt_of_pos _ (by omega)
  obtain ⟨r, h1, h2, h3⟩ := shift_at dims me dir d _ hd hdir hm0 hm1
  refine ⟨r, ?_, h2, h3⟩
  unfold cartShift
  rw [hdir, hp]
  simp only [hcd]
  by_cases hge : (c : Int) + dis ≥ d
  · rw [if_pos hge]
    have hpt : p = true := by rcases hin with h | h; omega; exact h.1
    rw [hpt, if_pos rfl, Int.tmod_eq_emod_of_nonneg (by omega), h1]
  · rw [if_neg hge]
    by_cases hlt : (c : Int) + dis < 0
    · rw [if_pos hlt]
      have hpt : p = true ∧ -(d : Int) ≤ c + dis := by rcases hin with h | h; omega; exact h
      rw [hpt.1, if_pos rfl, Int.tmod_eq_emod_of_nonneg (by omega),
        Int.add_emod_left, h1]
    · rw [if_neg hlt, ← h1, Int.emod_eq_of_lt (by omega) (by omega)]

example : (setCoords 1 5 [4, 3])[0]? = some 1 ∧ cartShift [4, 3] [true, false] 5 0 (-3) = some 6 ∧
    cartShift [4, 3] [true, false] 5 0 11 = some 4 := by decide +kernel

/-- In a non-periodic dimension a shift outside the grid returns `MPI_PROC_NULL`, for every
displacement. -/
theorem C26_outside (dims : List Nat) (periods : List Bool) (me dir d c : Nat) (dis : Int)
    (hdir : dims[dir]? = some d) (hp : periods[dir]? = some false)
    (hc : (setCoords 1 me dims)[dir]? = some c) (hout : c + dis < 0 ∨ (d : Int) ≤ c + dis) :
    cartShift dims periods me dir dis = some procNull := by
  have hcd : ((setCoords 1 me dims).map Int.ofNat).getD dir 0 = c := by
    simp [List.getD_eq_getElem?_getD, hc]
  unfold cartShift
  rw [hdir, hp]
  simp only [hcd]
  by_cases hge : (c : Int) + dis ≥ d
  · rw [if_pos hge]; rfl
  · rw [if_neg hge, if_pos (by omega)]; rfl

example : cartShift [4, 3] [true, false] 5 1 2 = some procNull ∧
    cartShift [4, 3] [true, false] 5 1 (-20) = some procNull := by decide +kernel

/-- A shift in a dimension that does not exist is rejected. -/
theorem C26_bad_dimension (dims : List Nat) (periods : List Bool) (me dir : Nat) (dis : Int)
    (h : dims.length ≤ dir) : cartShift dims periods me dir dis = none := by
  unfold cartShift
  rw [List.getElem?_eq_none h]

example : cartShift [4, 3] [true, false] 5 2 1 = none := by decide +kernel

/-- Source and destination are mutually inverse: the process I send to, shifting the same
way, receives from me (displacements of at most the extent). -/
theorem C26_symmetric_partial (dims : List Nat) (periods : List Bool) (me dir d : Nat) (dis : Int)
    (hd : ∀ x ∈ dims, 0 < x) (hme : me < dims.foldr (· * ·) 1) (hdir : dims[dir]? = some d)
    (hp : periods[dir]? = some true) (h1 : -(d : Int) ≤ dis) (h2 : dis ≤ d) :
    ∃ (r : Nat), cartShift dims periods me dir dis = some (r : Int) ∧
      cartShift dims periods r dir (-dis) = some (me : Int) := by
  have hlen : dir < dims.length := (List.getElem?_eq_some_iff.mp hdir).1
  have hlc : dir < (setCoords 1 me dims).length := by rw [setCoords_length]; exact hlen
  obtain ⟨c, hc⟩ : ∃ c, (setCoords 1 me dims)[dir]? = some c := ⟨_, List.getElem?_eq_getElem hlc⟩
  have hcd := setCoords_lt dims 1 me hd dir c d hc hdir
  obtain ⟨r, hr1, hr2, hr3⟩ := C26_shift_partial dims periods me dir d c dis true hd hdir hp hc
    (Or.inr ⟨rfl, by omega⟩)
  refine ⟨r, hr1, ?_⟩
  have hc' : (setCoords 1 r dims)[dir]? = some (((c : Int) + dis) % d).toNat := by
    rw [hr3, List.getElem?_set]
    simp [hlc]
  have hm0 : 0 ≤ ((c : Int) + dis) % d := Int.emod_nonneg _ (by omega)
  obtain ⟨r2, ha, hb, hcc⟩ := C26_shift_partial dims periods r dir d _ (-dis) true hd hdir hp hc'
    (Or.inr ⟨rfl, by omega⟩)
  rw [ha]
  have hback : ((((((c : Int) + dis) % d).toNat : Nat) : Int) + -dis) % d = c := by
    rw [Int.toNat_of_nonneg hm0, Int.emod_add_emod, Int.add_neg_cancel_right]
    exact Int.emod_eq_of_lt (by omega) (by omega)
  rw [hback, hr3, List.set_set] at hcc
  have hid : (setCoords 1 me dims).set dir ((c : Int)).toNat = setCoords 1 me dims := by
    apply List.ext_getElem?
    intro i
    rw [List.getElem?_set]
    split
    · rename_i hi
      subst hi
      rw [hc]
      simp
    · rfl
  rw [hid] at hcc
  have e1 := C25_rank_roundtrip dims me hme
  have e2 := C25_rank_roundtrip dims r2 hb
  rw [hcc, e1] at e2
  rw [← e2]

example : cartShift [4, 3] [true, true] 5 0 (-2) = some 7 ∧ cartShift [4, 3] [true, true] 7 0 2 = some 5 := by
  decide +kernel

/-- The full statement fails: shifting by -9 in a periodic dimension of extent 4 from
coordinate 0 should reach coordinate 3, but -1 (`MPI_PROC_NULL`) is returned. -/
theorem C26_shift_refuted :
    cartShift [4] [true] 0 0 (-9) = some procNull ∧ ((0 : Int) + -9) % 4 = 3 := by decide +kernel

/-! ### C27 Collective tags -/

theorem collTag_toNat (id : BitVec 32) (k : Nat) :
    (collTag id k).toNat = (id.toNat % 65536) * 65536 + (100 + k) % 65536 := by
  unfold collTag
  have h1 : (id.toNat % 65536) * 65536 < 4294967296 := by omega
  simp only [BitVec.toNat_or, BitVec.toNat_shiftLeft, BitVec.toNat_setWidth, BitVec.toNat_ofNat]
  have e1 : (id.toNat % 2 ^ 16 % 2 ^ 32) <<< 16 % 2 ^ 32 = (id.toNat % 65536) <<< 16 := by
    rw [Nat.shiftLeft_eq, Nat.shiftLeft_eq]
    omega
  have e2 : (100 + k) % 2 ^ 16 % 2 ^ 32 = (100 + k) % 65536 := by omega
  rw [e1, e2, ← Nat.shiftLeft_add_eq_or_of_lt (by omega), Nat.shiftLeft_eq]

/-- Exactly when two collectives get the same tag. -/
theorem C27_tag_eq (id id' : BitVec 32) (k k' : Nat) :
    collTag id k = collTag id' k' ↔
      id.toNat % 65536 = id'.toNat % 65536 ∧ k % 65536 = k' % 65536 := by
  rw [← BitVec.toNat_inj, collTag_toNat, collTag_toNat]
  omega

/-- Different collectives get different tags while communicator ids fit in 16 bits and fewer
than 65536 collectives of a communicator are outstanding.  Missing: ids of 65536 and more,
and a collective outstanding while 65536 later ones are issued (C27_tags_refuted). -/
theorem C27_unique_partial (id id' : BitVec 32) (k k' : Nat) (h1 : id.toNat < 65536)
    (h2 : id'.toNat < 65536) (hk : k ≤ k') (hw : k' < k + 65536)
    (h : collTag id k = collTag id' k') : id = id' ∧ k = k' := by
  have := (C27_tag_eq id id' k k').mp h
  refine ⟨BitVec.eq_of_toNat_eq (by omega), by omega⟩

example : collTag 3#32 5 ≠ collTag 4#32 5 ∧ collTag 3#32 5 ≠ collTag 3#32 6 := by decide +kernel

/-- The full statement fails: the collective 65536 places later, and the communicator whose
id is 65536 larger, reuse the tag. -/
theorem C27_tags_refuted (id : BitVec 32) (k : Nat) :
    collTag id k = collTag id (k + 65536) ∧
    collTag id k = collTag (id + 65536#32) k ∧ id ≠ id + 65536#32 := by
  refine ⟨(C27_tag_eq _ _ _ _).mpr (by omega), (C27_tag_eq _ _ _ _).mpr ⟨?_, rfl⟩, ?_⟩
  · rw [BitVec.toNat_add]
    simp only [BitVec.toNat_ofNat]
    omega
  · intro h
    have := congrArg BitVec.toNat h
    rw [BitVec.toNat_add] at this
    simp only [BitVec.toNat_ofNat] at this
    omega

end SST.Mpi.Comm
