import Verif.Apps.LuleshMatch
set_option autoImplicit false
/-
C158: the requests and the places in the buffers of an exchange of LULESH.
-/
namespace Verif.Apps.Lulesh

/-- A block without its guard. -/
def strip (b : Block) : Block := ⟨b.conds, false, b.lvl⟩

theorem layout_strip (P E pad : Nat) (l : List Block) : ∀ p e c, layout P E pad (l.map strip) p e c = layout P E pad l p e c := by
  induction l with
  | nil => intros; rfl
  | cons b l ih =>
    intro p e c
    obtain ⟨cs, g, v⟩ := b
    cases v <;> simp only [List.map_cons, strip, layout] <;> exact congrArg _ (ih _ _ _)

theorem filter_map_swap {α β : Type} (f : α → β) (p : β → Bool) (q : α → Bool) (l : List α) (h : ∀ x, x ∈ l → p (f x) = q x) :
    (l.map f).filter p = (l.filter q).map f := by
  induction l with
  | nil => rfl
  | cons x l ih =>
    have hx := h x List.mem_cons_self
    have ih := ih fun y hy => h y (List.mem_cons_of_mem _ hy)
    rw [List.map_cons, List.filter_cons, List.filter_cons, hx, ih]
    split <;> rfl

/-- `CommSBN` waits for the requests and reads the buffers that `CommRecv` has filled. -/
theorem C158_waits_sum (P E pad : Nat) (tp r : Int) (x : Exchange) (hf : x.flag = true) (hpo : x.planeOnly = false) :
    taken P E pad tp r true sbnTable = posted P E pad tp r x recvTable := by
  unfold taken posted active
  rw [hf, hpo, ← layout_strip _ _ _ ((recvTable.filter _).map _)]
  have e : sbnTable = (recvTable.map (·.block)).map strip := by decide
  rw [e, filter_map_swap (·.block) (fun b : Block => b.runs tp (pos tp r) true false) _ recvTable (fun _ _ => rfl) |>.symm,
    filter_map_swap strip (fun b : Block => b.runs tp (pos tp r) true false) (fun b : Block => b.runs tp (pos tp r) true false) _ ?_]
  intro b _
  simp [strip, Block.runs]

/-- `CommSyncPosVel` waits for the requests and reads the buffers that `CommRecv` has filled. -/
theorem C158_waits_sync (P E pad : Nat) (tp r : Int) (x : Exchange) (hf : x.flag = false) (hpo : x.planeOnly = false) :
    taken P E pad tp r false posVelTable = posted P E pad tp r x recvTable := by
  unfold taken posted active
  rw [hf, hpo]
  have e : posVelTable = recvTable.map (·.block) := by decide
  rw [e, filter_map_swap (·.block) (fun b : Block => b.runs tp (pos tp r) false false) _ recvTable (fun _ _ => rfl)]

/-- `CommMonoQ` waits for the requests and reads the buffers that `CommRecv` has filled. -/
theorem C158_waits_faces (P E pad : Nat) (tp r : Int) (x : Exchange) (hf : x.flag = true) (hpo : x.planeOnly = true) :
    taken P E pad tp r true monoQTable = posted P E pad tp r x recvTable := by
  unfold taken posted active
  rw [hf, hpo, ← layout_strip _ _ _ ((recvTable.filter _).map _)]
  have e : monoQTable = ((recvTable.filter fun e => e.block.lvl == .plane).map (·.block)).map strip := by decide
  have e2 : (recvTable.filter fun e => e.block.runs tp (pos tp r) true true) =
      (recvTable.filter fun e => e.block.lvl == .plane).filter fun e => e.block.runs tp (pos tp r) true false := by
    rw [List.filter_filter]
    apply List.filter_congr
    intro b _
    simp [Block.runs, Bool.and_comm]
  rw [e, e2, filter_map_swap (·.block) (fun b : Block => b.runs tp (pos tp r) true false) _ (recvTable.filter _) (fun _ _ => rfl) |>.symm,
    filter_map_swap strip (fun b : Block => b.runs tp (pos tp r) true false) (fun b : Block => b.runs tp (pos tp r) true false) _ ?_]
  intro b _
  simp [strip, Block.runs]

/-- Planes before edges before corners. -/
def Lvl.place : Lvl → Nat
  | .plane => 0
  | .edge => 1
  | .corner => 2

/-- The room for a block. -/
def room (P E pad : Nat) (b : Block) : Nat :=
  match b.lvl with
  | .plane => P
  | .edge => E
  | .corner => pad

/-- In a list with planes before edges before corners, the requests are numbered in order and each
block begins where the room of the ones before it ends. -/
theorem layout_get (P E pad : Nat) (l : List Block) : ∀ p e c,
    l.Pairwise (fun a b => a.lvl.place ≤ b.lvl.place) → (∀ b, b ∈ l → b.lvl = .plane → e = 0 ∧ c = 0) →
    (∀ b, b ∈ l → b.lvl = .edge → c = 0) → ∀ i, (layout P E pad l p e c)[i]? =
      (l[i]?).map fun b => (b.conds, p + e + c + i, p * P + e * E + c * pad + ((l.take i).map (room P E pad)).sum) := by
  induction l with
  | nil => intro p e c _ _ _ i; simp [layout]
  | cons b l ih =>
    intro p e c hs h1 h2 i
    rw [List.pairwise_cons] at hs
    have g1 : ∀ x, x ∈ l → x.lvl = .plane → e = 0 ∧ c = 0 := fun x hx => h1 x (List.mem_cons_of_mem _ hx)
    have g2 : ∀ x, x ∈ l → x.lvl = .edge → c = 0 := fun x hx => h2 x (List.mem_cons_of_mem _ hx)
    cases hb : b.lvl with
    | plane =>
      obtain ⟨rfl, rfl⟩ := h1 b List.mem_cons_self hb
      have hr : room P E pad b = P := by simp [room, hb]
      cases i with
      | zero => simp [layout, hb]
      | succ i =>
        simp only [layout, hb, List.getElem?_cons_succ]
        rw [ih (p + 1) 0 0 hs.2 g1 g2 i, List.take_succ_cons, List.map_cons, List.sum_cons, hr]
        apply congrArg (fun f => Option.map f l[i]?)
        funext x
        simp only [Prod.mk.injEq, true_and, Nat.add_mul]
        omega
    | edge =>
      have hc := h2 b List.mem_cons_self hb
      subst hc
      have hr : room P E pad b = E := by simp [room, hb]
      have g1' : ∀ x, x ∈ l → x.lvl = .plane → e + 1 = 0 ∧ (0 : Nat) = 0 := by
        intro x hx hp
        have := hs.1 x hx
        rw [hb, hp] at this
        simp [Lvl.place] at this
      cases i with
      | zero => simp [layout, hb]
      | succ i =>
        simp only [layout, hb, List.getElem?_cons_succ]
        rw [ih p (e + 1) 0 hs.2 g1' g2 i, List.take_succ_cons, List.map_cons, List.sum_cons, hr]
        apply congrArg (fun f => Option.map f l[i]?)
        funext x
        simp only [Prod.mk.injEq, true_and, Nat.add_mul]
        omega
    | corner =>
      have hr : room P E pad b = pad := by simp [room, hb]
      have g1' : ∀ x, x ∈ l → x.lvl = .plane → e = 0 ∧ c + 1 = 0 := by
        intro x hx hp
        have := hs.1 x hx
        rw [hb, hp] at this
        simp [Lvl.place] at this
      have g2' : ∀ x, x ∈ l → x.lvl = .edge → c + 1 = 0 := by
        intro x hx hp
        have := hs.1 x hx
        rw [hb, hp] at this
        simp [Lvl.place] at this
      cases i with
      | zero => simp [layout, hb]
      | succ i =>
        simp only [layout, hb, List.getElem?_cons_succ]
        rw [ih p e (c + 1) hs.2 g1' g2' i, List.take_succ_cons, List.map_cons, List.sum_cons, hr]
        apply congrArg (fun f => Option.map f l[i]?)
        funext x
        simp only [Prod.mk.injEq, true_and, Nat.add_mul]
        omega

theorem sorted_recv : (recvTable.map (·.block)).Pairwise (fun a b => a.lvl.place ≤ b.lvl.place) := by decide
theorem sorted_send : (sendTable.map (·.block)).Pairwise (fun a b => a.lvl.place ≤ b.lvl.place) := by decide

theorem sum_take_succ (l : List Nat) : ∀ (i : Nat) (x : Nat), l[i]? = some x → (l.take (i + 1)).sum = (l.take i).sum + x := by
  induction l with
  | nil => intro i x h; simp at h
  | cons a l ih =>
    intro i x h
    cases i with
    | zero => simp at h; simp [h]
    | succ i =>
      simp only [List.getElem?_cons_succ] at h
      rw [List.take_succ_cons, List.take_succ_cons, List.sum_cons, List.sum_cons, ih i x h]
      omega

theorem sum_take_mono (l : List Nat) : ∀ (i j : Nat), i ≤ j → (l.take i).sum ≤ (l.take j).sum := by
  induction l with
  | nil => intro i j _; simp
  | cons a l ih =>
    intro i j h
    cases i with
    | zero => simp
    | succ i =>
      cases j with
      | zero => omega
      | succ j =>
        rw [List.take_succ_cons, List.take_succ_cons, List.sum_cons, List.sum_cons]
        have := ih i j (by omega)
        omega

theorem sum_filter_le {α : Type} (f : α → Nat) (p q : α → Bool) (l : List α) (h : ∀ x, p x = true → q x = true) :
    ((l.filter p).map f).sum ≤ ((l.filter q).map f).sum := by
  induction l with
  | nil => simp
  | cons x l ih =>
    rw [List.filter_cons, List.filter_cons]
    by_cases hp : p x = true
    · rw [if_pos hp, if_pos (h x hp)]
      simpa using ih
    · rw [if_neg hp]
      split
      · simp only [List.map_cons, List.sum_cons]; omega
      · exact ih

theorem sum_filter {α : Type} (f : α → Nat) (p : α → Bool) (l : List α) : ((l.filter p).map f).sum = (l.map fun x => if p x = true then f x else 0).sum := by
  induction l with
  | nil => rfl
  | cons x l ih =>
    rw [List.filter_cons, List.map_cons, List.sum_cons, ← ih]
    split <;> simp

theorem ite_bit (b : Bool) (n : Nat) : (if b = true then n else 0) = bit b * n := by cases b <;> simp [bit]

/-- The rooms of all the blocks that the variables of a rank allow fit in the buffer. -/
theorem rooms_le (PS ES pad P E : Nat) (hP : P ≤ PS * 6) (hE : E ≤ ES * 6) (h : Cond → Bool) (t : List Block)
    (ht : t.map (fun b => (b.conds, b.lvl)) = (recvTable.map (·.block)).map (fun b => (b.conds, b.lvl))) :
    ((t.filter fun b => b.conds.all h).map (room P E pad)).sum ≤
      (bit (h .rowMin) + bit (h .rowMax) + bit (h .colMin) + bit (h .colMax) + bit (h .planeMin) + bit (h .planeMax)) * PS * 6 +
      (bit (h .rowMin && h .colMin) + bit (h .rowMin && h .planeMin) + bit (h .colMin && h .planeMin) + bit (h .rowMax && h .colMax) + bit (h .rowMax && h .planeMax) + bit (h .colMax && h .planeMax) +
       bit (h .rowMax && h .colMin) + bit (h .rowMin && h .planeMax) + bit (h .colMin && h .planeMax) + bit (h .rowMin && h .colMax) + bit (h .rowMax && h .planeMin) + bit (h .colMax && h .planeMin)) * ES * 6 +
      (bit (h .rowMin && h .colMin && h .planeMin) + bit (h .rowMin && h .colMin && h .planeMax) + bit (h .rowMin && h .colMax && h .planeMin) + bit (h .rowMin && h .colMax && h .planeMax) +
       bit (h .rowMax && h .colMin && h .planeMin) + bit (h .rowMax && h .colMin && h .planeMax) + bit (h .rowMax && h .colMax && h .planeMin) + bit (h .rowMax && h .colMax && h .planeMax)) * pad := by
  rw [sum_filter]
  have e : (t.map fun x => if x.conds.all h = true then room P E pad x else 0) =
      (t.map (fun b => (b.conds, b.lvl))).map (fun y => if y.1.all h = true then room P E pad ⟨y.1, false, y.2⟩ else 0) := by
    rw [List.map_map]
    rfl
  rw [e, ht]
  simp only [recvTable, List.map_cons, List.map_nil, List.sum_cons, List.sum_nil, List.all_cons, List.all_nil, room, Bool.and_true]
  simp only [ite_bit]
  generalize h .rowMin = a
  generalize h .rowMax = b
  generalize h .colMin = c
  generalize h .colMax = d
  generalize h .planeMin = k
  generalize h .planeMax = m
  simp only [Bool.and_assoc]
  rw [Nat.mul_assoc _ PS 6, Nat.mul_assoc _ ES 6]
  refine Nat.le_trans ?_ (Nat.add_le_add_right (Nat.add_le_add (Nat.mul_le_mul_left _ hP) (Nat.mul_le_mul_left _ hE)) _)
  clear e ht
  apply Nat.le_of_eq
  simp only [Nat.add_mul]
  ac_rfl

/-- The requests are numbered in order, the places do not overlap, and all are in the buffer. -/
theorem buffers (t : List Post) (hs : (t.map (·.block)).Pairwise (fun a b => a.lvl.place ≤ b.lvl.place))
    (ht : (t.map (·.block)).map (fun b => (b.conds, b.lvl)) = (recvTable.map (·.block)).map (fun b => (b.conds, b.lvl)))
    (hz : ∀ e, e ∈ t → ∀ dx dy dz m, dx ≤ m → dy ≤ m → dz ≤ m →
      (e.block.lvl = .plane ∧ e.size.eval dx dy dz ≤ m * m) ∨ (e.block.lvl = .edge ∧ e.size.eval dx dy dz ≤ m) ∨
      (e.block.lvl = .corner ∧ e.size.eval dx dy dz ≤ 1))
    {PS ES pad m : Nat} {tp r : Int} {x : Exchange} (hx : x.dx ≤ m ∧ x.dy ≤ m ∧ x.dz ≤ m) (hPS : m * m ≤ PS)
    (hES : m ≤ ES) (hf : x.fields ≤ 6) (hpad : 6 ≤ pad) {i : Nat} {e : Post} (he : (active tp r x t)[i]? = some e) :
    ∃ off, (posted (x.fields * PS) (x.fields * ES) pad tp r x t)[i]? = some (e.block.conds, i, off) ∧
      off + x.count e ≤ comBufSize PS ES pad tp (pos tp r) ∧
      ∀ j v, i < j → (posted (x.fields * PS) (x.fields * ES) pad tp r x t)[j]? = some v → off + x.count e ≤ v.2.2 := by
  have hsub : ((active tp r x t).map (·.block)).Pairwise (fun a b => a.lvl.place ≤ b.lvl.place) :=
    hs.sublist (List.filter_sublist.map _)
  have hget := layout_get (x.fields * PS) (x.fields * ES) pad _ 0 0 0 hsub (fun _ _ _ => ⟨rfl, rfl⟩) (fun _ _ _ => rfl)
  have hei : ((active tp r x t).map (·.block))[i]? = some e.block := by rw [List.getElem?_map, he]; rfl
  have hcnt : x.count e ≤ room (x.fields * PS) (x.fields * ES) pad e.block := by
    unfold Exchange.count room
    have hmem : e ∈ t := (List.mem_filter.1 (List.mem_of_getElem? he)).1
    rcases hz e hmem x.dx x.dy x.dz m hx.1 hx.2.1 hx.2.2 with ⟨hl, hv⟩ | ⟨hl, hv⟩ | ⟨hl, hv⟩
    · rw [hl]; dsimp only; rw [Nat.mul_comm]; exact Nat.mul_le_mul_left _ (Nat.le_trans hv hPS)
    · rw [hl]; dsimp only; rw [Nat.mul_comm]; exact Nat.mul_le_mul_left _ (Nat.le_trans hv hES)
    · rw [hl]; dsimp only
      have := Nat.mul_le_mul_right x.fields hv
      omega
  have hri : (((active tp r x t).map (·.block)).map (room (x.fields * PS) (x.fields * ES) pad))[i]? = some (room (x.fields * PS) (x.fields * ES) pad e.block) := by
    rw [List.getElem?_map, hei]; rfl
  have hsucc := sum_take_succ _ i _ hri
  refine ⟨_, by unfold posted; rw [hget i, hei]; simp only [Option.map_some, Nat.zero_add]; rfl, ?_, ?_⟩
  · have htot : ((((active tp r x t).map (·.block)).map (room (x.fields * PS) (x.fields * ES) pad)).take (i + 1)).sum ≤
        (((active tp r x t).map (·.block)).map (room (x.fields * PS) (x.fields * ES) pad)).sum := by
      have := sum_take_mono (((active tp r x t).map (·.block)).map (room (x.fields * PS) (x.fields * ES) pad)) (i + 1)
        (max (i + 1) (((active tp r x t).map (·.block)).map (room (x.fields * PS) (x.fields * ES) pad)).length) (by omega)
      rw [List.take_of_length_le (i := max _ _) (by omega)] at this
      exact this
    have hle : (((active tp r x t).map (·.block)).map (room (x.fields * PS) (x.fields * ES) pad)).sum ≤ comBufSize PS ES pad tp (pos tp r) := by
      refine Nat.le_trans ?_ (rooms_le PS ES pad (x.fields * PS) (x.fields * ES) ?_ ?_ (holds tp (pos tp r)) (t.map (·.block)) ht)
      · unfold active
        rw [← filter_map_swap (·.block) (fun b : Block => b.runs tp (pos tp r) x.flag x.planeOnly) _ t (fun _ _ => rfl)]
        apply sum_filter_le
        intro b hb
        simp only [Block.runs, Bool.and_eq_true] at hb
        exact hb.1.1
      · rw [Nat.mul_comm PS]; exact Nat.mul_le_mul_right _ hf
      · rw [Nat.mul_comm ES]; exact Nat.mul_le_mul_right _ hf
    rw [List.map_take]
    omega
  · intro j v hij hv
    unfold posted at hv
    rw [hget j] at hv
    cases hj : ((active tp r x t).map (·.block))[j]? with
    | none => rw [hj] at hv; simp at hv
    | some b =>
      rw [hj] at hv
      simp only [Option.map_some, Option.some.injEq] at hv
      rw [← hv]
      simp only [Nat.zero_mul, Nat.zero_add]
      rw [List.map_take, List.map_take]
      have := sum_take_mono (((active tp r x t).map (·.block)).map (room (x.fields * PS) (x.fields * ES) pad)) (i + 1) j (by omega)
      omega

theorem size_le (sz : Size) (v : Lvl) (h : (v, sz) ∈ [(Lvl.plane, Size.xy), (.plane, .xz), (.plane, .yz), (.edge, .x), (.edge, .y), (.edge, .z), (.corner, .one)])
    (dx dy dz m : Nat) (hx : dx ≤ m) (hy : dy ≤ m) (hz : dz ≤ m) :
    (v = .plane ∧ sz.eval dx dy dz ≤ m * m) ∨ (v = .edge ∧ sz.eval dx dy dz ≤ m) ∨ (v = .corner ∧ sz.eval dx dy dz ≤ 1) := by
  simp only [List.mem_cons, Prod.mk.injEq, List.not_mem_nil, or_false] at h
  rcases h with ⟨rfl, rfl⟩ | ⟨rfl, rfl⟩ | ⟨rfl, rfl⟩ | ⟨rfl, rfl⟩ | ⟨rfl, rfl⟩ | ⟨rfl, rfl⟩ | ⟨rfl, rfl⟩
  · exact .inl ⟨rfl, Nat.mul_le_mul hx hy⟩
  · exact .inl ⟨rfl, Nat.mul_le_mul hx hz⟩
  · exact .inl ⟨rfl, Nat.mul_le_mul hy hz⟩
  · exact .inr (.inl ⟨rfl, hx⟩)
  · exact .inr (.inl ⟨rfl, hy⟩)
  · exact .inr (.inl ⟨rfl, hz⟩)
  · exact .inr (.inr ⟨rfl, Nat.le_refl _⟩)

/-- The receive buffers of an exchange: request `i` is the one of the `i`-th receive, its data end
before those of the next begin, and before the end of the allocation. -/
theorem C158_recv_buffers {PS ES pad m : Nat} {tp r : Int} {x : Exchange} (hx : x.dx ≤ m ∧ x.dy ≤ m ∧ x.dz ≤ m)
    (hPS : m * m ≤ PS) (hES : m ≤ ES) (hf : x.fields ≤ 6) (hpad : 6 ≤ pad) {i : Nat} {e : Post}
    (he : (active tp r x recvTable)[i]? = some e) :
    ∃ off, (posted (x.fields * PS) (x.fields * ES) pad tp r x recvTable)[i]? = some (e.block.conds, i, off) ∧
      off + x.count e ≤ comBufSize PS ES pad tp (pos tp r) ∧
      ∀ j v, i < j → (posted (x.fields * PS) (x.fields * ES) pad tp r x recvTable)[j]? = some v → off + x.count e ≤ v.2.2 :=
  buffers recvTable sorted_recv rfl (fun e he dx dy dz m h1 h2 h3 => size_le e.size e.block.lvl
    ((by decide : ∀ e, e ∈ recvTable → (e.block.lvl, e.size) ∈ [(Lvl.plane, Size.xy), (.plane, .xz), (.plane, .yz), (.edge, .x), (.edge, .y), (.edge, .z), (.corner, .one)]) e he)
    dx dy dz m h1 h2 h3) hx hPS hES hf hpad he

/-- The same of the send buffers. -/
theorem C158_send_buffers {PS ES pad m : Nat} {tp r : Int} {x : Exchange} (hx : x.dx ≤ m ∧ x.dy ≤ m ∧ x.dz ≤ m)
    (hPS : m * m ≤ PS) (hES : m ≤ ES) (hf : x.fields ≤ 6) (hpad : 6 ≤ pad) {i : Nat} {e : Post}
    (he : (active tp r x sendTable)[i]? = some e) :
    ∃ off, (posted (x.fields * PS) (x.fields * ES) pad tp r x sendTable)[i]? = some (e.block.conds, i, off) ∧
      off + x.count e ≤ comBufSize PS ES pad tp (pos tp r) ∧
      ∀ j v, i < j → (posted (x.fields * PS) (x.fields * ES) pad tp r x sendTable)[j]? = some v → off + x.count e ≤ v.2.2 :=
  buffers sendTable sorted_send (by decide) (fun e he dx dy dz m h1 h2 h3 => size_le e.size e.block.lvl
    ((by decide : ∀ e, e ∈ sendTable → (e.block.lvl, e.size) ∈ [(Lvl.plane, Size.xy), (.plane, .xz), (.plane, .yz), (.edge, .x), (.edge, .y), (.edge, .z), (.corner, .one)]) e he)
    dx dy dz m h1 h2 h3) hx hPS hES hf hpad he

/-- There are requests enough for all messages of an exchange: `recvRequest` and `sendRequest` have
26, lulesh.h:514-515. -/
theorem C158_requests (tp r : Int) (x : Exchange) : (active tp r x recvTable).length ≤ 26 ∧ (active tp r x sendTable).length ≤ 26 :=
  ⟨List.length_filter_le _ _, List.length_filter_le _ _⟩

/-- `CACHE_ALIGN_REAL` rounds up. -/
theorem C158_align {pad n : Nat} (h : 0 < pad) : n ≤ cacheAlign pad n ∧ cacheAlign pad n < n + pad ∧ cacheAlign pad n % pad = 0 := by
  unfold cacheAlign
  have h1 := Nat.div_add_mod (n + (pad - 1)) pad
  have h2 := Nat.mod_lt (n + (pad - 1)) h
  have h3 : (n + (pad - 1)) / pad * pad = pad * ((n + (pad - 1)) / pad) := Nat.mul_comm _ _
  refine ⟨by omega, by omega, Nat.mul_mod_left _ _⟩

/-- The rank in the middle of a cube of 27: 26 receives, the last in the room of the last corner. -/
example : (active 3 13 (forceX 2) recvTable).length = 26 ∧
    (posted (3 * 16) (3 * 16) 16 3 13 (forceX 2) recvTable)[25]? = some ([.rowMax, .colMax, .planeMax], 25, 6 * 48 + 12 * 48 + 7 * 16) ∧
    comBufSize 16 16 16 3 (pos 3 13) = 18 * 96 + 8 * 16 := by decide +kernel

end Verif.Apps.Lulesh
