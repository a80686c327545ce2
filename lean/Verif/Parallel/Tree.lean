import Verif.Parallel.Lemmas3
/-
Model of the thread tree of sstmac/backends/native/multithreaded_event_container.cc:
construction (:195-228), the downward broadcast of the window and the upward minimum
(:92-131 for the worker threads, :246-272 for the main thread).

Simplifications: the busy-wait handshake through `delta_t` is not modelled step by step;
a parent reads a child's `min_time` only after the child has finished its subtree
(`wait_on_child_completion`, :93-101), which is the recursion below.
-/
namespace SST.Parallel
open SST.Events

/-- `child1` and `child2` of every queue (`nullptr` is `none`),
multithreaded_event_container.h:63-83. -/
abbrev Kids := Nat → Option Nat × Option Nat

/-- Body of the inner `for` loop, multithreaded_event_container.cc:211-223. -/
def attach (last off : Nat) (k : Kids) (c : Nat) : Kids :=
  let childOffset := c - off
  let parentOffset := childOffset / 2
  let childNumber := childOffset % 2
  let parent := last + parentOffset
  if childNumber = 0 then upd k parent (some c, (k parent).2)
  else upd k parent ((k parent).1, some c)

/-- The outer `while` loop, multithreaded_event_container.cc:206-228.  (The guard
`0 < size` is always true; it only makes termination obvious.) -/
def levels (n last off size : Nat) (k : Kids) : Kids :=
  if _h : off < n ∧ 0 < size then
    levels n off (off + size) (size * 2)
      ((List.range' off (min (off + size) n - off)).foldl (attach last off) k)
  else k
termination_by n - off

/-- The tree for `n` subthreads, multithreaded_event_container.cc:203-206. -/
def buildTree (n : Nat) : Kids := levels n 0 2 4 (fun _ => (none, none))

/-- Children of the main thread, multithreaded_event_container.cc:194-201. -/
def mainKids (n : Nat) : Option Nat × Option Nat :=
  (if n ≥ 1 then some 0 else none, if n ≥ 2 then some 1 else none)

/-- The queues reached by the broadcast from queue `q` (the `if (q->child1)` /
`if (q->child2)` lines :112-113), to depth `fuel`. -/
def below (k : Kids) : Nat → Nat → List Nat
  | 0, _ => []
  | fuel + 1, q =>
    q :: ((match (k q).1 with | none => [] | some c => below k fuel c) ++
          (match (k q).2 with | none => [] | some c => below k fuel c))

/-- All queues reached from the main thread, :257-258. -/
def reached (n : Nat) : List Nat :=
  (match (mainKids n).1 with | none => [] | some c => below (buildTree n) n c) ++
  (match (mainKids n).2 with | none => [] | some c => below (buildTree n) n c)

/-- `min_time` of queue `q` after its subtree has finished, :121-126. -/
def subtreeMin (k : Kids) (vote : Nat → Option Nat) : Nat → Nat → Option Nat
  | 0, _ => none
  | fuel + 1, q =>
    let m0 := vote q
    let m1 := match (k q).1 with | none => m0 | some c => minTime m0 (subtreeMin k vote fuel c)
    match (k q).2 with | none => m1 | some c => minTime m1 (subtreeMin k vote fuel c)

/-- `min_time` of the main thread after both waits, :261-266. -/
def mainMin (n : Nat) (own : Option Nat) (vote : Nat → Option Nat) : Option Nat :=
  let m1 := match (mainKids n).1 with
    | none => own | some c => minTime own (subtreeMin (buildTree n) vote n c)
  match (mainKids n).2 with
    | none => m1 | some c => minTime m1 (subtreeMin (buildTree n) vote n c)

/-! ### closed form -/

/-- Closed form of the tree: children as in a heap. -/
def heapKids (n q : Nat) : Option Nat × Option Nat :=
  (if 2 * q + 2 < n then some (2 * q + 2) else none, if 2 * q + 3 < n then some (2 * q + 3) else none)

theorem attach_range {last off : Nat} (ho : off = 2 * last + 2) (m : Nat) :
    ∀ {c : Nat}, off ≤ c → ∀ (k : Kids), (∀ q, k q = heapKids c q) →
      ∀ q, (List.range' c m).foldl (attach last off) k q = heapKids (c + m) q := by
  induction m with
  | zero => intro c _ k hk q; simpa using hk q
  | succ m ih =>
    intro c hc k hk q
    rw [List.range'_succ, List.foldl_cons]
    have := ih (c := c + 1) (by omega) (attach last off k c) (by
      intro q'
      unfold attach
      have hp : last + (c - off) / 2 = (c - 2) / 2 := by omega
      simp only [hp]
      split
      · rename_i h0
        by_cases hq : q' = (c - 2) / 2
        · subst hq
          rw [upd_same, hk]
          unfold heapKids
          have : 2 * ((c - 2) / 2) + 2 = c := by omega
          ext1 <;> simp only [this] <;> grind
        · rw [upd_ne _ _ hq, hk]
          unfold heapKids
          ext1 <;> simp only <;> split <;> split <;> first | rfl | omega
      · rename_i h0
        by_cases hq : q' = (c - 2) / 2
        · subst hq
          rw [upd_same, hk]
          unfold heapKids
          have : 2 * ((c - 2) / 2) + 2 = c - 1 := by omega
          have h3 : 2 * ((c - 2) / 2) + 3 = c := by omega
          ext1 <;> simp only [this, h3] <;> grind
        · rw [upd_ne _ _ hq, hk]
          unfold heapKids
          ext1 <;> simp only <;> split <;> split <;> first | rfl | omega) q
    rw [this]
    congr 1; omega

theorem levels_heap (n : Nat) : ∀ (d last off size : Nat) (k : Kids), n - off ≤ d →
    off = 2 * last + 2 → size = 2 * (off - last) → (∀ q, k q = heapKids (min off n) q) →
    ∀ q, levels n last off size k q = heapKids n q := by
  intro d
  induction d with
  | zero =>
    intro last off size k hd ho hs hk q
    rw [levels, dif_neg (by omega), hk]
    congr 1; omega
  | succ d ih =>
    intro last off size k hd ho hs hk q
    rw [levels]
    split
    · rename_i h
      apply ih
      · omega
      · omega
      · omega
      · intro q'
        rw [attach_range ho _ (Nat.le_refl _) k (by intro q; rw [hk]; congr 1; omega)]
        congr 1; omega
    · rw [hk]; congr 1; omega

theorem buildTree_heap (n q : Nat) : buildTree n q = heapKids n q := by
  unfold buildTree
  apply levels_heap n _ 0 2 4 _ (Nat.le_refl _) rfl rfl
  intro q
  unfold heapKids
  ext1 <;> simp only <;> split <;> first | rfl | omega

/-! ### every queue is reached once -/

/-- `q` is an ancestor of `x` (or `x`) in the heap -/
def anc (q x : Nat) : Bool :=
  if x = q then true else if 2 ≤ x then anc q ((x - 2) / 2) else false
termination_by x

theorem anc_le {q x : Nat} (h : anc q x = true) : q ≤ x := by
  fun_induction anc q x with
  | case1 => omega
  | case2 x _ _ ih => have := ih h; omega
  | case3 => cases h

theorem anc_split (q x : Nat) :
    (anc q x).toNat = (if x = q then 1 else 0) + (anc (2 * q + 2) x).toNat + (anc (2 * q + 3) x).toNat := by
  induction x using Nat.strongRecOn with
  | _ x ih =>
    have hf : ∀ a y, y < a → anc a y = false := by
      intro a y h
      cases h' : anc a y
      · rfl
      · have := anc_le h'; omega
    by_cases hq : x = q
    · subst hq
      rw [hf (2 * x + 2) x (by omega), hf (2 * x + 3) x (by omega)]
      rw [anc]; simp
    · by_cases h2 : 2 ≤ x
      · have hp := ih ((x - 2) / 2) (by omega)
        have e1 : anc q x = anc q ((x - 2) / 2) := by rw [anc]; simp [hq, h2]
        by_cases ha : x = 2 * q + 2
        · have : (x - 2) / 2 = q := by omega
          rw [e1, this, anc]
          rw [show anc (2 * q + 2) x = true by rw [anc]; simp [ha]]
          rw [hf (2 * q + 3) x (by omega)]
          simp [hq]
        · by_cases hb : x = 2 * q + 3
          · have : (x - 2) / 2 = q := by omega
            rw [e1, this, anc]
            rw [show anc (2 * q + 3) x = true by rw [anc]; simp [hb]]
            rw [show anc (2 * q + 2) x = anc (2 * q + 2) q by
              rw [anc]; simp only [ha, if_false, h2, if_true, this]]
            rw [hf (2 * q + 2) q (by omega)]
            simp [hq]
          · have e2 : anc (2 * q + 2) x = anc (2 * q + 2) ((x - 2) / 2) := by rw [anc]; simp [ha, h2]
            have e3 : anc (2 * q + 3) x = anc (2 * q + 3) ((x - 2) / 2) := by rw [anc]; simp [hb, h2]
            rw [e1, e2, e3, hp]
            have : ¬ ((x - 2) / 2 = q) := by omega
            simp [this, hq]
      · rw [anc]
        rw [hf (2 * q + 2) x (by omega), hf (2 * q + 3) x (by omega)]
        simp [hq, h2]

theorem anc_root (x : Nat) : (anc 0 x).toNat + (anc 1 x).toNat = 1 := by
  induction x using Nat.strongRecOn with
  | _ x ih =>
    by_cases h2 : 2 ≤ x
    · have e1 : anc 0 x = anc 0 ((x - 2) / 2) := by rw [anc]; simp [show x ≠ 0 by omega, h2]
      have e2 : anc 1 x = anc 1 ((x - 2) / 2) := by rw [anc]; simp [show x ≠ 1 by omega, h2]
      rw [e1, e2]; exact ih _ (by omega)
    · have : x = 0 ∨ x = 1 := by omega
      rcases this with rfl | rfl <;> simp [anc]

theorem below_count {n : Nat} {k : Kids} (hk : ∀ q, k q = heapKids n q) (x : Nat) :
    ∀ fuel q, q < n → n ≤ q + fuel →
      (below k fuel q).count x = if x < n then (anc q x).toNat else 0 := by
  have hf : ∀ a y, y < a → anc a y = false := by
    intro a y h
    cases h' : anc a y
    · rfl
    · have := anc_le h'; omega
  intro fuel
  induction fuel with
  | zero => intro q h1 h2; omega
  | succ fuel ih =>
    intro q h1 h2
    have key : ∀ c, q < c → 
        List.count x (match (if c < n then some c else none : Option Nat) with | none => [] | some c => below k fuel c) =
          if x < n then (anc c x).toNat else 0 := by
      intro c hc
      by_cases hcn : c < n
      · simp only [hcn, if_true]; exact ih c hcn (by omega)
      · simp only [hcn, if_false, List.count_nil]
        split
        · rw [hf c x (by omega)]; rfl
        · rfl
    simp only [below, hk, heapKids, List.count_cons, List.count_append]
    rw [key _ (by omega), key _ (by omega), anc_split q x]
    by_cases hxq : x = q
    · subst hxq; simp [h1]; omega
    · have : (q == x) = false := by rw [beq_eq_false_iff_ne]; exact fun h => hxq h.symm
      simp only [this, hxq, if_false]
      split <;> simp

theorem reached_count (n x : Nat) : (reached n).count x = if x < n then 1 else 0 := by
  have hb := below_count (buildTree_heap n) x n
  have hf : ∀ a y, y < a → anc a y = false := by
    intro a y h
    cases h' : anc a y
    · rfl
    · have := anc_le h'; omega
  have hr := anc_root x
  unfold reached mainKids
  rw [List.count_append]
  by_cases h1 : n ≥ 1
  · by_cases h2 : n ≥ 2
    · simp only [h1, h2, if_true]
      rw [hb 0 (by omega) (by omega), hb 1 (by omega) (by omega)]
      split
      · exact hr
      · rfl
    · simp only [h1, h2, if_true, if_false, List.count_nil]
      rw [hb 0 (by omega) (by omega)]
      split
      · rw [hf 1 x (by omega)] at hr
        simpa using hr
      · rfl
  · have : n = 0 := by omega
    subst this
    simp

/-! ### the minimum -/

/-- `m` is the minimum of the values of `f` on `l` (`none` is infinity). -/
def IsMin {α : Type} (f : α → Option Nat) (l : List α) (m : Option Nat) : Prop :=
  match m with
  | none => ∀ a ∈ l, f a = none
  | some t => (∃ a ∈ l, f a = some t) ∧ ∀ a ∈ l, ∀ t', f a = some t' → t ≤ t'

theorem isMin_append {α : Type} {f : α → Option Nat} {l₁ l₂ : List α} {m₁ m₂ : Option Nat}
    (h1 : IsMin f l₁ m₁) (h2 : IsMin f l₂ m₂) : IsMin f (l₁ ++ l₂) (minTime m₁ m₂) := by
  cases m₁ <;> cases m₂ <;> simp only [minTime, IsMin, List.mem_append] at *
  · grind
  · grind
  · grind
  · rename_i a b
    obtain ⟨⟨x, hx, fx⟩, h1⟩ := h1
    obtain ⟨⟨y, hy, fy⟩, h2⟩ := h2
    refine ⟨?_, ?_⟩
    · by_cases hab : a ≤ b
      · exact ⟨x, Or.inl hx, by rw [fx]; congr 1; omega⟩
      · exact ⟨y, Or.inr hy, by rw [fy]; congr 1; omega⟩
    · rintro z (hz | hz) t ht
      · have := h1 z hz t ht; omega
      · have := h2 z hz t ht; omega

theorem isMin_nil {α : Type} (f : α → Option Nat) : IsMin f [] none := by simp [IsMin]
theorem isMin_single {α : Type} (f : α → Option Nat) (a : α) : IsMin f [a] (f a) := by
  cases h : f a <;> simp [IsMin, h]

theorem minTime_none_left (a : Option Nat) : minTime none a = a := by cases a <;> rfl
theorem minTime_none_right (a : Option Nat) : minTime a none = a := by cases a <;> rfl

theorem subtree_isMin (k : Kids) (vote : Nat → Option Nat) (fuel : Nat) :
    ∀ q, IsMin vote (below k fuel q) (subtreeMin k vote fuel q) := by
  induction fuel with
  | zero => intro q; exact isMin_nil _
  | succ fuel ih =>
    intro q
    simp only [below, subtreeMin]
    cases h1 : (k q).1 <;> cases h2 : (k q).2 <;> simp only [List.nil_append, List.append_nil]
    · exact isMin_single vote q
    · exact isMin_append (l₁ := [q]) (isMin_single vote q) (ih _)
    · exact isMin_append (l₁ := [q]) (isMin_single vote q) (ih _)
    · rename_i a b
      have := isMin_append (isMin_append (l₁ := [q]) (isMin_single vote q) (ih a)) (ih b)
      simpa using this

end SST.Parallel
