import Verif.Sumi.DenseRank
/-
C87: the dense numbering of the surviving ranks.
-/
set_option autoImplicit false
namespace SST.Sumi

/-! ### Specification -/

/-- The surviving ranks below `n`, in order. -/
def survivors (failed : List Int) (n : Nat) : List Int :=
  ((List.range n).map fun (i : Nat) => (i : Int)).filter fun i => decide (i ∉ failed)

/-- The failed ranks are ranks, in ascending order, each once. -/
def Failed (failed : List Int) : Prop := failed.Pairwise (· < ·) ∧ ∀ f ∈ failed, 0 ≤ f

/-! ### Lemmas -/

/-- How many failed ranks are below `r`. -/
def below (failed : List Int) (r : Int) : Nat := (failed.filter fun f => decide (f < r)).length

theorem below_cons (f : Int) (fs : List Int) (r : Int) : below (f :: fs) r = (if f < r then 1 else 0) + below fs r := by
  unfold below
  rw [List.filter_cons]
  by_cases h : f < r <;> simp [h] <;> omega

theorem below_eq_zero {fs : List Int} {r : Int} (h : ∀ f ∈ fs, r ≤ f) : below fs r = 0 := by
  unfold below
  rw [List.length_eq_zero_iff, List.filter_eq_nil_iff]
  intro f hf
  have := h f hf
  simp; omega

theorem below_eq_length {fs : List Int} {r : Int} (h : ∀ f ∈ fs, f < r) : below fs r = fs.length := by
  unfold below
  rw [List.length_filter_eq_length_iff]
  intro f hf
  simpa using h f hf

theorem below_append (a b : List Int) (r : Int) : below (a ++ b) r = below a r + below b r := by
  unfold below
  rw [List.filter_append, List.length_append]

theorem linear_eq (r : Int) : ∀ (fs : List Int) (i : Nat), fs.Pairwise (· < ·) → r ∉ fs → linearFind r i fs = r - (i + below fs r : Nat) := by
  intro fs
  induction fs with
  | nil => intro i _ _; simp [linearFind, below]
  | cons f fs ih =>
    intro i hp hr
    rw [List.pairwise_cons] at hp
    simp only [List.mem_cons, not_or] at hr
    rw [linearFind, below_cons]
    split
    · rename_i h
      rw [if_neg (by omega), below_eq_zero (fun x hx => by have := hp.1 x hx; omega)]
      simp
    · rename_i h
      rw [ih (i + 1) hp.2 hr.2, if_pos (by omega)]
      omega

theorem tree_eq (r : Int) (off : Nat) (fs : List Int) (hp : fs.Pairwise (· < ·)) (hr : r ∉ fs) (h0 : fs ≠ []) :
    treeFind r off fs = some (r - (off + below fs r : Nat)) := by
  fun_induction treeFind r off fs with
  | case1 => exact absurd rfl h0
  | case2 off f h => simp [below_cons, h, below]
  | case3 off f h h' => simp [below_cons, h, below]
  | case4 off f h h' => simp at hr; omega
  | case5 off f g rest fs mid h =>
    exfalso
    rw [List.getElem?_eq_none_iff] at h
    simp only [mid, fs, List.length_cons] at h
    omega
  | case6 off f g rest fs mid m hm h ih =>
    replace hp : fs.Pairwise (· < ·) := hp
    replace hr : r ∉ fs := hr
    have e : fs = fs.take mid ++ fs.drop mid := (List.take_append_drop mid fs).symm
    have hlen : 0 < mid ∧ mid < fs.length := by simp only [mid, fs, List.length_cons]; omega
    rw [ih (hp.sublist (List.take_sublist _ _)) (fun hx => hr (List.mem_of_mem_take hx)) (by
      intro hn
      have := congrArg List.length hn
      simp only [List.length_take, List.length_nil] at this
      omega)]
    have hz : below (fs.drop mid) r = 0 := by
      apply below_eq_zero
      intro x hx
      obtain ⟨k, hk, rfl⟩ := List.mem_iff_getElem.1 hx
      rw [List.getElem_drop]
      obtain ⟨h1, rfl⟩ := List.getElem?_eq_some_iff.1 hm
      rcases Nat.eq_zero_or_pos k with rfl | hk0
      · simp only [Nat.add_zero]; omega
      · have := (List.pairwise_iff_getElem.1 hp) mid (mid + k) (by omega) (by simp only [List.length_drop] at hk; omega) (by omega)
        omega
    have : below fs r = below (fs.take mid) r := by
      conv => lhs; rw [e]
      rw [below_append, hz, Nat.add_zero]
    rw [← this]
  | case7 off f g rest fs mid m hm h h' ih =>
    replace hp : fs.Pairwise (· < ·) := hp
    replace hr : r ∉ fs := hr
    have e : fs = fs.take mid ++ fs.drop mid := (List.take_append_drop mid fs).symm
    have hlen : 0 < mid ∧ mid < fs.length := by simp only [mid, fs, List.length_cons]; omega
    rw [ih (hp.sublist (List.drop_sublist _ _)) (fun hx => hr (List.mem_of_mem_drop hx)) (by
      intro hn
      have := congrArg List.length hn
      simp only [List.length_drop, List.length_nil] at this
      omega)]
    have hz : below (fs.take mid) r = mid := by
      rw [below_eq_length, List.length_take]
      · omega
      · intro x hx
        obtain ⟨k, hk, rfl⟩ := List.mem_iff_getElem.1 hx
        rw [List.getElem_take]
        obtain ⟨h1, rfl⟩ := List.getElem?_eq_some_iff.1 hm
        have := (List.pairwise_iff_getElem.1 hp) k mid (by simp only [List.length_take] at hk; omega) h1 (by simp only [List.length_take] at hk; omega)
        omega
    have : below fs r = mid + below (fs.drop mid) r := by
      conv => lhs; rw [e]
      rw [below_append, hz]
    rw [this]
    congr 2
    omega
  | case8 off f g rest fs mid m hm h h' =>
    exfalso
    have : r = m := by omega
    subst this
    exact hr (List.mem_of_getElem? hm)

theorem dense_eq {failed : List Int} (hp : failed.Pairwise (· < ·)) {r : Int} (hr : r ∉ failed) :
    denseRank failed r = some (r - below failed r) := by
  unfold denseRank
  split
  · rename_i h
    rw [List.length_eq_zero_iff] at h
    subst h
    simp [below]
  · rename_i h
    split
    · rw [linear_eq r failed 0 hp hr]; simp
    · rw [tree_eq r 0 failed hp hr (fun e => h (by rw [e]; rfl))]; simp

/-- Survivors below `n` and failed ranks below `n` make `n`. -/
theorem survivors_length {failed : List Int} (hf : Failed failed) (n : Nat) : (survivors failed n).length + below failed n = n := by
  induction n with
  | zero =>
    have : below failed ((0 : Nat) : Int) = 0 := below_eq_zero (fun f h => hf.2 f h)
    rw [this]
    rfl
  | succ n ih =>
    have e : survivors failed (n + 1) = survivors failed n ++ (if (n : Int) ∉ failed then [(n : Int)] else []) := by
      unfold survivors
      rw [List.range_succ, List.map_append, List.filter_append]
      congr 1
      simp only [List.map_cons, List.map_nil, List.filter_cons, List.filter_nil]
      by_cases h : (n : Int) ∈ failed <;> simp [h]
    have e2 : below failed ((n + 1 : Nat) : Int) = below failed n + (if (n : Int) ∈ failed then 1 else 0) := by
      have hp := hf.1
      clear ih e hf
      induction failed with
      | nil => simp [below]
      | cons f fs ih =>
        rw [List.pairwise_cons] at hp
        rw [below_cons, below_cons, ih hp.2]
        by_cases h : (n : Int) = f
        · subst h
          have : (n : Int) ∉ fs := fun hm => by have := hp.1 _ hm; omega
          rw [if_pos (by omega), if_neg this, if_neg (by omega), if_pos (List.mem_cons_self ..)]; omega
        · have : ((n : Int) ∈ f :: fs) ↔ (n : Int) ∈ fs := by simp [h]
          simp only [this]
          by_cases h2 : f < (n : Int)
          · rw [if_pos h2, if_pos (by omega)]; omega
          · rw [if_neg h2, if_neg (by omega)]
            omega
    rw [e, e2, List.length_append]
    by_cases h : (n : Int) ∈ failed <;> simp [h] <;> omega

theorem below_le {failed : List Int} (hf : Failed failed) (n : Nat) : below failed n ≤ n := by
  have := survivors_length hf n; omega

theorem sparse_spec : ∀ (fs : List Int) (d : Int), fs.Pairwise (· < ·) →
    d ≤ sparseRank fs d ∧ sparseRank fs d ∉ fs ∧ sparseRank fs d - below fs (sparseRank fs d) = d := by
  intro fs
  induction fs with
  | nil => intro d _; simp [sparseRank, below]
  | cons f fs ih =>
    intro d hp
    rw [List.pairwise_cons] at hp
    rw [sparseRank]
    split
    · rename_i h
      obtain ⟨h1, h2, h3⟩ := ih (d + 1) hp.2
      refine ⟨by omega, ?_, ?_⟩
      · simp only [List.mem_cons, not_or]; exact ⟨by omega, h2⟩
      · rw [below_cons, if_pos (by omega)]; omega
    · rename_i h
      refine ⟨by omega, ?_, ?_⟩
      · simp only [List.mem_cons, not_or]
        exact ⟨by omega, fun hm => by have := hp.1 _ hm; omega⟩
      · rw [below_cons, if_neg (by omega), below_eq_zero (fun x hx => by have := hp.1 x hx; omega)]; simp

/-- Surviving ranks with the same number of survivors below are the same. -/
theorem dense_inj {fs : List Int} (hp : fs.Pairwise (· < ·)) {r s : Int} (hr : r ∉ fs) (hs : s ∉ fs) (h : r - below fs r = s - below fs s) : r = s := by
  -- the number of failed ranks in between is less than the distance
  have key : ∀ (fs : List Int) (r s : Int), fs.Pairwise (· < ·) → r ∉ fs → r < s → (below fs s : Int) - below fs r < s - r := by
    intro fs
    induction fs with
    | nil => intro r s _ _ h; simp [below]; omega
    | cons f fs ih =>
      intro r s hp hr h
      rw [List.pairwise_cons] at hp
      simp only [List.mem_cons, not_or] at hr
      rw [below_cons, below_cons]
      by_cases h1 : f < r
      · have := ih r s hp.2 hr.2 h
        rw [if_pos h1, if_pos (by omega)]; omega
      · by_cases h2 : f < s
        · -- from `f` on
          rw [if_pos h2, if_neg h1, below_eq_zero (fs := fs) (r := r) (fun x hx => by have := hp.1 x hx; omega)]
          have hf : f ∉ fs := fun hm => by have := hp.1 _ hm; omega
          have h3 := ih f s hp.2 hf h2
          have : below fs f = 0 := below_eq_zero (fun x hx => by have := hp.1 x hx; omega)
          omega
        · rw [if_neg h2, if_neg h1, below_eq_zero (fs := fs) (r := s) (fun x hx => by have := hp.1 x hx; omega)]
          omega
  rcases Int.lt_trichotomy r s with hlt | he | hlt
  · have := key fs r s hp hr hlt; omega
  · exact he
  · have := key fs s r hp hs hlt; omega

/-! ### C87 -/

/-- **C87**: the dense rank of a surviving rank is the number of surviving ranks below it, whichever of the two
search methods is used. -/
theorem C87_dense (failed : List Int) (hf : Failed failed) (r : Nat) (hr : (r : Int) ∉ failed) :
    denseRank failed r = some ((survivors failed r).length : Int) := by
  rw [dense_eq hf.1 hr]
  have := survivors_length hf r
  congr 1
  omega

/-- **C87**: a dense rank leads to a surviving rank, with that dense rank. -/
theorem C87_sparse (failed : List Int) (hf : Failed failed) (d : Nat) :
    ∃ r : Nat, sparseRank failed d = r ∧ (r : Int) ∉ failed ∧ denseRank failed r = some (d : Int) := by
  obtain ⟨h1, h2, h3⟩ := sparse_spec failed d hf.1
  have e : ((sparseRank failed d).toNat : Int) = sparseRank failed d := by omega
  refine ⟨(sparseRank failed d).toNat, e.symm, by rw [e]; exact h2, ?_⟩
  rw [e, dense_eq hf.1 h2, h3]

/-- **C87**: and back: the sparse rank of the dense rank of a surviving rank is that rank. -/
theorem C87_back (failed : List Int) (hf : Failed failed) (r : Nat) (hr : (r : Int) ∉ failed) (d : Int) (hd : denseRank failed r = some d) :
    sparseRank failed d = r := by
  rw [dense_eq hf.1 hr, Option.some.injEq] at hd
  obtain ⟨h1, h2, h3⟩ := sparse_spec failed d hf.1
  exact dense_inj hf.1 h2 hr (by omega)

/-- **C87**, partial: with more than four failures, asking for the dense rank of a failed rank is an error. -/
theorem C87_failed_partial (failed : List Int) (hf : Failed failed) (h4 : 4 < failed.length) (r : Int) (hr : r ∈ failed) : denseRank failed r = none := by
  have key : ∀ (off : Nat) (fs : List Int), fs.Pairwise (· < ·) → r ∈ fs → treeFind r off fs = none := by
    intro off fs hp hr
    fun_induction treeFind r off fs with
    | case1 => rfl
    | case2 off f h => simp at hr; omega
    | case3 off f h h' => simp at hr; omega
    | case4 off f h h' => rfl
    | case5 => rfl
    | case6 off f g rest fs mid m hm h ih =>
      replace hp : fs.Pairwise (· < ·) := hp
      apply ih (hp.sublist (List.take_sublist _ _))
      replace hr : r ∈ fs := hr
      rw [← List.take_append_drop mid fs, List.mem_append] at hr
      rcases hr with h1 | h1
      · exact h1
      · exfalso
        obtain ⟨k, hk, rfl⟩ := List.mem_iff_getElem.1 h1
        rw [List.getElem_drop] at h
        obtain ⟨hlt, rfl⟩ := List.getElem?_eq_some_iff.1 hm
        rcases Nat.eq_zero_or_pos k with rfl | hk0
        · simp only [Nat.add_zero] at h; omega
        · have := (List.pairwise_iff_getElem.1 hp) mid (mid + k) (by omega) (by simp only [List.length_drop] at hk; omega) (by omega)
          omega
    | case7 off f g rest fs mid m hm h h' ih =>
      replace hp : fs.Pairwise (· < ·) := hp
      apply ih (hp.sublist (List.drop_sublist _ _))
      replace hr : r ∈ fs := hr
      rw [← List.take_append_drop mid fs, List.mem_append] at hr
      rcases hr with h1 | h1
      · exfalso
        obtain ⟨k, hk, rfl⟩ := List.mem_iff_getElem.1 h1
        rw [List.getElem_take] at h'
        obtain ⟨hlt, rfl⟩ := List.getElem?_eq_some_iff.1 hm
        have := (List.pairwise_iff_getElem.1 hp) k mid (by simp only [List.length_take] at hk; omega) hlt (by simp only [List.length_take] at hk; omega)
        omega
      · exact h1
    | case8 => rfl
  unfold denseRank
  rw [if_neg (by omega), if_neg (by omega)]
  exact key 0 failed hf.1 hr

/-- **C87**, refuted for up to four failures: rank 1 has failed, but its dense rank is that of rank 0. -/
theorem C87_failed_refuted : Failed [1] ∧ denseRank [1] 1 = denseRank [1] 0 ∧ denseRank [1] 0 = some 0 := by
  refine ⟨⟨by decide, by decide⟩, by decide, by decide⟩

/-- The hypotheses are met with both search methods, and the answers are not trivial. -/
example : Failed [0, 2, 3, 7, 9, 10] ∧ survivors [0, 2, 3, 7, 9, 10] 12 = [1, 4, 5, 6, 8, 11] ∧
    denseRank [0, 2, 3, 7, 9, 10] 8 = some 4 ∧ sparseRank [0, 2, 3, 7, 9, 10] 4 = 8 ∧ denseRank [0, 2, 3, 7, 9, 10] 7 = none ∧
    denseRank [1, 4] 5 = some 3 ∧ sparseRank [1, 4] 3 = 5 := by
  refine ⟨⟨by decide, by decide⟩, by decide, by decide +kernel, by decide, by decide +kernel, by decide, by decide⟩

end SST.Sumi
