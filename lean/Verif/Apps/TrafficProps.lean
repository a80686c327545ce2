import Verif.Apps.Traffic
set_option autoImplicit false
/-
Properties of the pairing of the traffic skeleton.
-/
namespace Verif.Apps.Traffic

theorem ins_perm (a : Nat × Nat) (l : List (Nat × Nat)) : (ins a l).Perm (a :: l) := by
  induction l with
  | nil => exact List.Perm.refl _
  | cons b l ih =>
    simp only [ins]
    split
    · exact List.Perm.refl _
    · exact (ih.cons b).trans (List.Perm.swap a b l)

theorem sort_perm (l : List (Nat × Nat)) : (l.foldr ins []).Perm l := by
  induction l with
  | nil => exact List.Perm.refl _
  | cons a l ih => exact (ins_perm a _).trans (ih.cons a)

theorem shuffle_perm (h : Nat → Nat) (v : List Nat) : (shuffle h v).Perm v := by
  have h1 := (sort_perm (v.map fun x => (h x, x))).map (·.2)
  have h2 : (v.map fun x => (h x, x)).map (·.2) = v := by
    rw [List.map_map]; exact List.map_id v
  rw [h2] at h1
  exact h1

theorem pairLe_total (a b : Nat × Nat) (h : ¬ pairLe a b = true) : pairLe b a = true := by
  simp only [pairLe, Bool.or_eq_true, Bool.and_eq_true, decide_eq_true_eq, beq_iff_eq] at *
  omega

theorem pairLe_trans (a b c : Nat × Nat) (h : pairLe a b = true) (k : pairLe b c = true) : pairLe a c = true := by
  simp only [pairLe, Bool.or_eq_true, Bool.and_eq_true, decide_eq_true_eq, beq_iff_eq] at *
  omega

theorem ins_sorted (a : Nat × Nat) (l : List (Nat × Nat)) (h : l.Pairwise (fun x y => pairLe x y = true)) :
    (ins a l).Pairwise (fun x y => pairLe x y = true) := by
  induction l with
  | nil => simp [ins]
  | cons b l ih =>
    have hb := List.pairwise_cons.1 h
    simp only [ins]
    split
    · rename_i hab
      refine List.pairwise_cons.2 ⟨?_, h⟩
      intro x hx
      rcases List.mem_cons.1 hx with rfl | hx
      · exact hab
      · exact pairLe_trans a b x hab (hb.1 x hx)
    · rename_i hab
      refine List.pairwise_cons.2 ⟨?_, ih hb.2⟩
      intro x hx
      rcases List.mem_cons.1 ((ins_perm a l).mem_iff.1 hx) with rfl | hx
      · exact pairLe_total _ _ hab
      · exact hb.1 x hx

/-- A shuffle is a rearrangement, by ascending hash and for equal hashes by ascending rank. -/
theorem C162_shuffle (h : Nat → Nat) (v : List Nat) :
    (shuffle h v).Perm v ∧ (shuffle h v).Pairwise (fun x y => h x < h y ∨ (h x = h y ∧ x ≤ y)) := by
  refine ⟨shuffle_perm h v, ?_⟩
  have hs : ((v.map fun x => (h x, x)).foldr ins []).Pairwise (fun x y => pairLe x y = true) := by
    induction v.map fun x => (h x, x) with
    | nil => exact List.Pairwise.nil
    | cons a l ih => exact ins_sorted a _ ih
  refine List.pairwise_map.2 (hs.imp_of_mem ?_)
  intro a b ha hb hab
  have e : ∀ p ∈ (v.map fun x => (h x, x)).foldr ins [], p.1 = h p.2 := by
    intro p hp
    obtain ⟨x, _, rfl⟩ := List.mem_map.1 ((sort_perm _).mem_iff.1 hp)
    rfl
  simp only [pairLe, Bool.or_eq_true, Bool.and_eq_true, decide_eq_true_eq, beq_iff_eq, e a ha, e b hb] at hab
  exact hab

theorem loop_spec (h : Nat → Nat → Nat) (ns spr : Nat) (senders : List Nat) : ∀ (f loops : Nat) (v w : List Nat),
    recverLoop h ns spr senders f loops v = some w → w.Perm v ∧ clash ns spr senders w = false := by
  intro f
  induction f with
  | zero => intro loops v w e; simp [recverLoop] at e
  | succ f ih =>
    intro loops v w e
    simp only [recverLoop] at e
    split at e
    · simp at e
    · split at e
      · obtain ⟨i1, i2⟩ := ih _ _ _ e
        exact ⟨i1.trans (shuffle_perm _ _), i2⟩
      · rename_i hc
        simp only [Option.some.injEq] at e
        subst e
        exact ⟨shuffle_perm _ _, by simpa using hc⟩

theorem nodup_of_perm (f : Nat → Nat) (hf : ∀ a b, f a = f b → a = b) (m : Nat) (l : List Nat)
    (h : l.Perm ((List.range m).map f)) : l.Nodup ∧ l.length = m ∧ ∀ x ∈ l, ∃ i, i < m ∧ x = f i := by
  refine ⟨?_, by rw [h.length_eq]; simp, ?_⟩
  · refine h.symm.nodup ?_
    exact List.pairwise_map.2 (List.nodup_range.imp (fun hab e => hab (hf _ _ e)))
  · intro x hx
    obtain ⟨i, hi, e⟩ := List.mem_map.1 (h.mem_iff.1 hx)
    exact ⟨i, by simpa using hi, e.symm⟩

/-- What the set-up gives: a list of distinct even ranks and a list of distinct odd ones. -/
theorem setup_spec (h : Nat → Nat → Nat) (nproc ns nr : Nat) (a b : Int) (ps : List (Nat × Nat))
    (e : setup h nproc ns nr a b = some ps) :
    0 < nr ∧ ns % nr = 0 ∧ 0 < ns ∧ ns ≤ nproc / 2 ∧ ∃ senders recvers, ps = pairsOf ns (ns / nr) senders recvers ∧
      senders.Nodup ∧ senders.length = nproc / 2 ∧ (∀ x ∈ senders, x < nproc ∧ x % 2 = 0) ∧
      recvers.Nodup ∧ recvers.length = nr ∧ (∀ x ∈ recvers, x < nproc ∧ x % 2 = 1) ∧
      (0 < b → clash ns (ns / nr) senders recvers = false) := by
  simp only [setup] at e
  split at e
  · simp at e
  · rename_i hc
    have hle : nr ≤ ns := Nat.le_of_dvd (by omega) (Nat.dvd_of_mod_eq_zero (by omega))
    refine ⟨by omega, by omega, by omega, by omega, ?_⟩
    generalize hS : (if a > 0 then shuffle (h a.toNat) ((List.range (nproc / 2)).map fun i => 2 * i) else (List.range (nproc / 2)).map fun i => 2 * i) = S at e
    have pS : S.Perm ((List.range (nproc / 2)).map fun i => 2 * i) := by
      rw [← hS]; split
      · exact shuffle_perm _ _
      · exact List.Perm.refl _
    obtain ⟨s1, s2, s3⟩ := nodup_of_perm (fun i => 2 * i) (fun a b h => by omega) _ S pS
    generalize hR : (if b > 0 then shuffledRecvers h ns S b (nproc / 2) nr else some (((List.range (nproc / 2)).map fun i => 2 * i + 1).take nr)) = R at e
    cases R with
    | none => simp at e
    | some R =>
      simp only at e
      have key : ∃ w, w.Perm ((List.range (nproc / 2)).map fun i => 2 * i + 1) ∧ R = w.take nr ∧
          (0 < b → clash ns (ns / nr) S w = false) := by
        split at hR
        · rename_i hb
          simp only [shuffledRecvers, Option.map_eq_some_iff] at hR
          obtain ⟨w, hw, hR⟩ := hR
          obtain ⟨q1, q2⟩ := loop_spec h ns (ns / nr) S _ _ _ _ hw
          exact ⟨w, q1, hR.symm, fun _ => q2⟩
        · rename_i hb
          simp only [Option.some.injEq] at hR
          exact ⟨_, List.Perm.refl _, hR.symm, fun hb' => absurd hb' hb⟩
      obtain ⟨w, pw, eR, hcl⟩ := key
      obtain ⟨r1, r2, r3⟩ := nodup_of_perm (fun i => 2 * i + 1) (fun a b h => by omega) _ w pw
      split at e
      · simp at e
      · simp only [Option.some.injEq] at e
        refine ⟨S, R, e.symm, s1, s2, ?_, ?_, ?_, ?_, ?_⟩
        · intro x hx
          obtain ⟨i, hi, rfl⟩ := s3 x hx
          omega
        · rw [eR]; exact r1.sublist (List.take_sublist _ _)
        · rw [eR, List.length_take, r2]; omega
        · intro x hx
          rw [eR] at hx
          obtain ⟨i, hi, rfl⟩ := r3 x (List.mem_of_mem_take hx)
          omega
        · intro hb
          have := hcl hb
          simp only [clash, List.any_eq_false, List.mem_range, beq_iff_eq] at this ⊢
          intro s hs
          have hq : s / (ns / nr) < nr := by
            have hd : ns / nr * nr = ns := Nat.div_mul_cancel (Nat.dvd_of_mod_eq_zero (by omega))
            exact (Nat.div_lt_iff_lt_mul (Nat.div_pos hle (by omega))).2 (by rw [Nat.mul_comm, hd]; exact hs)
          have hg : R.getD (s / (ns / nr)) 0 = w.getD (s / (ns / nr)) 0 := by
            rw [eR]; simp [List.getD, List.getElem?_take, hq]
          rw [hg]
          exact this s hs

/-- Which arguments are accepted: an even number of at least four ranks, up to half of them senders, a number
of receivers that divides it, and seeds that are not zero; without shuffles all of these are. -/
theorem C162_accepted (h : Nat → Nat → Nat) (nproc ns nr : Nat) (a b : Int) :
    ((setup h nproc ns nr a b).isSome → nproc % 2 = 0 ∧ 4 ≤ nproc ∧ 0 < ns ∧ 2 * ns ≤ nproc ∧ 0 < nr ∧ nr ∣ ns ∧ a ≠ 0 ∧ b ≠ 0) ∧
    (a < 0 → b < 0 → nproc % 2 = 0 → 4 ≤ nproc → 0 < ns → 2 * ns ≤ nproc → 0 < nr → nr ∣ ns → (setup h nproc ns nr a b).isSome) := by
  constructor
  · intro hs
    simp only [setup] at hs
    split at hs
    · simp at hs
    · exact ⟨by omega, by omega, by omega, by omega, by omega, Nat.dvd_of_mod_eq_zero (by omega), by omega, by omega⟩
  · intro ha hb h1 h2 h3 h4 h5 h6
    have h7 := Nat.mod_eq_zero_of_dvd h6
    have ha' : ¬ a > 0 := by omega
    have hb' : ¬ b > 0 := by omega
    simp only [setup]
    rw [if_neg (by omega)]
    simp only [ha', hb', if_false, false_and, and_false]
    rfl

theorem getD_mem (l : List Nat) (i : Nat) (h : i < l.length) : l.getD i 0 ∈ l := by
  simp [List.getD, h]

theorem getD_inj (l : List Nat) (hl : l.Nodup) (i j : Nat) (hi : i < l.length) (hj : j < l.length) (e : l.getD i 0 = l.getD j 0) : i = j := by
  simp [List.getD, hi, hj] at e
  exact (List.getElem_inj hl).1 e

theorem block_count (k j : Nat) : ∀ n, j < n → 0 < k → ((List.range (k * n)).filter (fun s => s / k == j)).length = k := by
  intro n
  induction n with
  | zero => intro h; omega
  | succ n ih =>
    intro h hk
    rw [Nat.mul_succ, List.range_add, List.filter_append, List.length_append]
    have hin : ∀ i, i < k → (k * n + i) / k = n := fun i hi => by
      rw [Nat.mul_add_div hk, Nat.div_eq_of_lt hi, Nat.add_zero]
    by_cases hj : j = n
    · subst hj
      have h1 : (List.range (k * j)).filter (fun s => s / k == j) = [] := by
        rw [List.filter_eq_nil_iff]
        intro s hs
        have : s / k < j := (Nat.div_lt_iff_lt_mul hk).2 (by rw [Nat.mul_comm]; simpa using hs)
        simp; omega
      have h2 : ((List.range k).map (k * j + ·)).filter (fun s => s / k == j) = (List.range k).map (k * j + ·) := by
        rw [List.filter_eq_self]
        intro s hs
        obtain ⟨i, hi, rfl⟩ := List.mem_map.1 hs
        simp [hin i (by simpa using hi)]
      rw [h1, h2]; simp
    · have h2 : ((List.range k).map (k * n + ·)).filter (fun s => s / k == j) = [] := by
        rw [List.filter_eq_nil_iff]
        intro s hs
        obtain ⟨i, hi, rfl⟩ := List.mem_map.1 hs
        simp [hin i (by simpa using hi)]; omega
      rw [h2, ih (by omega) hk]; rfl

/-- The pairs of a run: as many as senders, all senders different and even, all receivers odd and each with
the same number of senders. -/
theorem C162_pairs (h : Nat → Nat → Nat) (nproc ns nr : Nat) (a b : Int) (ps : List (Nat × Nat))
    (e : setup h nproc ns nr a b = some ps) :
    ps.length = ns ∧ (ps.map (·.1)).Nodup ∧
    (∀ p ∈ ps, p.1 < nproc ∧ p.1 % 2 = 0 ∧ p.2 < nproc ∧ p.2 % 2 = 1) ∧
    ∀ p ∈ ps, (ps.filter (fun q => q.2 == p.2)).length * nr = ns := by
  obtain ⟨h1, h2, h3, h4, S, R, rfl, s1, s2, s3, r1, r2, r3, _⟩ := setup_spec h nproc ns nr a b ps e
  have hle : nr ≤ ns := Nat.le_of_dvd (by omega) (Nat.dvd_of_mod_eq_zero (by omega))
  have hk : 0 < ns / nr := Nat.div_pos hle (by omega)
  have hd : ns / nr * nr = ns := Nat.div_mul_cancel (Nat.dvd_of_mod_eq_zero (by omega))
  have hq : ∀ s, s < ns → s / (ns / nr) < nr := fun s hs =>
    (Nat.div_lt_iff_lt_mul hk).2 (by rw [Nat.mul_comm, hd]; exact hs)
  refine ⟨by simp [pairsOf], ?_, ?_, ?_⟩
  · simp only [pairsOf, List.map_map]
    refine List.pairwise_map.2 ?_
    refine List.Pairwise.imp_of_mem ?_ List.nodup_range
    intro i j hi hj hne he
    exact hne (getD_inj S s1 i j (by have := List.mem_range.1 hi; omega) (by have := List.mem_range.1 hj; omega) he)
  · intro p hp
    simp only [pairsOf, List.mem_map, List.mem_range] at hp
    obtain ⟨s, hs, rfl⟩ := hp
    have m1 := s3 _ (getD_mem S s (by omega))
    have m2 := r3 _ (getD_mem R (s / (ns / nr)) (by rw [r2]; exact hq s hs))
    exact ⟨m1.1, m1.2, m2.1, m2.2⟩
  · intro p hp
    simp only [pairsOf, List.mem_map, List.mem_range] at hp
    obtain ⟨s, hs, rfl⟩ := hp
    have hf : ((pairsOf ns (ns / nr) S R).filter (fun q => q.2 == R.getD (s / (ns / nr)) 0)).length = ns / nr := by
      rw [pairsOf, List.filter_map, List.length_map]
      have hcongr : (List.range ns).filter ((fun q : Nat × Nat => q.2 == R.getD (s / (ns / nr)) 0) ∘ fun s => (S.getD s 0, R.getD (s / (ns / nr)) 0))
          = (List.range ns).filter (fun t => t / (ns / nr) == s / (ns / nr)) := by
        apply List.filter_congr
        intro t ht
        have ht' := List.mem_range.1 ht
        simp only [Function.comp]
        rw [Bool.eq_iff_iff, beq_iff_eq, beq_iff_eq]
        constructor
        · intro he
          exact getD_inj R r1 _ _ (by rw [r2]; exact hq t ht') (by rw [r2]; exact hq s hs) he
        · intro he; rw [he]
      rw [hcongr]
      conv => lhs; rw [← hd]
      rw [Nat.mul_div_cancel _ (by omega)]
      exact block_count _ _ nr (hq s hs) hk
    dsimp only
    rw [hf, hd]

theorem roles_acc (rank : Nat) : ∀ (ps : List (Nat × Nat)) (st : List Nat × Option Nat),
    ps.foldl (fun st p => if p.2 = rank then (st.1 ++ [p.1], st.2) else if p.1 = rank then (st.1, some p.2) else st) st =
      (st.1 ++ (roles rank ps).1, (roles rank ps).2.or st.2) := by
  intro ps
  induction ps with
  | nil => intro st; simp [roles]
  | cons p ps ih =>
    intro st
    simp only [roles, List.foldl_cons]
    rw [ih, ih]
    by_cases h1 : p.2 = rank
    · simp [h1]
    · by_cases h2 : p.1 = rank
      · simp [h1, h2]
      · simp [h1, h2]

theorem roles_cons (rank : Nat) (p : Nat × Nat) (ps : List (Nat × Nat)) :
    roles rank (p :: ps) = (if p.2 = rank then [p.1] ++ (roles rank ps).1 else (roles rank ps).1,
      if p.2 = rank then (roles rank ps).2 else if p.1 = rank then (roles rank ps).2.or (some p.2) else (roles rank ps).2) := by
  conv => lhs; rw [roles, List.foldl_cons, roles_acc]
  by_cases h1 : p.2 = rank
  · simp [h1]
  · by_cases h2 : p.1 = rank
    · simp [h1, h2]
    · simp [h1, h2]

theorem roles_fst (rank : Nat) (ps : List (Nat × Nat)) : (roles rank ps).1 = (ps.filter (fun p => p.2 == rank)).map (·.1) := by
  induction ps with
  | nil => rfl
  | cons p ps ih =>
    rw [roles_cons]
    by_cases h1 : p.2 = rank
    · simp [h1, ih]
    · simp [h1, ih]

theorem roles_snd (rank : Nat) (ps : List (Nat × Nat)) (hd : (ps.map (·.1)).Nodup) (hno : ∀ p ∈ ps, p.2 ≠ rank) (q : Nat) :
    (roles rank ps).2 = some q ↔ (rank, q) ∈ ps := by
  induction ps with
  | nil => simp [roles]
  | cons p ps ih =>
    have hd' := List.nodup_cons.1 (by simpa using hd : (p.1 :: ps.map (·.1)).Nodup)
    have ih' := ih hd'.2 (fun x hx => hno x (by simp [hx]))
    rw [roles_cons]
    simp only [hno p (by simp), if_false]
    by_cases h2 : p.1 = rank
    · have hnone : (roles rank ps).2 = none := by
        cases hr : (roles rank ps).2 with
        | none => rfl
        | some x =>
          exfalso
          have := (ih hd'.2 (fun x hx => hno x (by simp [hx]))) 
          have hm : (rank, x) ∈ ps := by
            have aux : ∀ (l : List (Nat × Nat)), (roles rank l).2 = some x → (rank, x) ∈ l := by
              intro l
              induction l with
              | nil => intro h; simp [roles] at h
              | cons y l ihl =>
                intro h
                rw [roles_cons] at h
                dsimp only at h
                split at h
                · exact List.mem_cons_of_mem _ (ihl h)
                · split at h
                  · rename_i hy
                    cases hl : (roles rank l).2 with
                    | none =>
                      rw [hl] at h
                      simp only [Option.none_or, Option.some.injEq] at h
                      rw [← hy, ← h]; simp
                    | some z =>
                      rw [hl] at h
                      simp only [Option.some_or, Option.some.injEq] at h
                      exact List.mem_cons_of_mem _ (ihl (by rw [hl, h]))
                  · exact List.mem_cons_of_mem _ (ihl h)
            exact aux ps hr
          exact hd'.1 (List.mem_map.2 ⟨_, hm, h2.symm⟩)
      simp only [h2, if_true, hnone, Option.none_or, Option.some.injEq]
      constructor
      · intro hq; rw [← h2, ← hq]; simp
      · intro hm
        rcases List.mem_cons.1 hm with hm | hm
        · rw [← hm]
        · exact absurd (List.mem_map.2 ⟨_, hm, h2.symm⟩) hd'.1
    · simp only [h2, if_false]
      rw [ih']
      constructor
      · intro hm; exact List.mem_cons_of_mem _ hm
      · intro hm
        rcases List.mem_cons.1 hm with hm | hm
        · rw [← hm] at h2; exact absurd rfl h2
        · exact hm

/-- Each rank finds its part: a rank sends to another exactly if that one expects it, no rank does both, and
the ranks that a receiver expects are different. -/
theorem C162_roles (h : Nat → Nat → Nat) (nproc ns nr : Nat) (a b : Int) (ps : List (Nat × Nat))
    (e : setup h nproc ns nr a b = some ps) :
    (∀ s r, (roles s ps).2 = some r ↔ s ∈ (roles r ps).1) ∧
    (∀ r, (roles r ps).1 = [] ∨ (roles r ps).2 = none) ∧
    (∀ r, (roles r ps).1.Nodup ∧ ((roles r ps).1 ≠ [] → (roles r ps).1.length * nr = ns)) ∧
    ∀ s, (∃ r, (s, r) ∈ ps) → ∃ r, (roles s ps).2 = some r := by
  obtain ⟨h1, h2, h3, h4⟩ := C162_pairs h nproc ns nr a b ps e
  have hin : ∀ s r, s ∈ (roles r ps).1 ↔ (s, r) ∈ ps := by
    intro s r
    rw [roles_fst]
    simp only [List.mem_map, List.mem_filter, beq_iff_eq]
    constructor
    · rintro ⟨⟨x, y⟩, ⟨hm, hy⟩, hx⟩; dsimp only at hx hy; subst hx; subst hy; exact hm
    · intro hm; exact ⟨(s, r), ⟨hm, rfl⟩, rfl⟩
  have hnone : ∀ r, r % 2 = 1 → (roles r ps).2 = none := by
    intro r hr
    have aux : ∀ l : List (Nat × Nat), (∀ p ∈ l, p.1 % 2 = 0) → (roles r l).2 = none := by
      intro l
      induction l with
      | nil => intro _; rfl
      | cons p l ih =>
        intro hl
        have hp := hl p (by simp)
        have hne : p.1 ≠ r := by omega
        rw [roles_cons]
        simp only [hne, if_false, ite_self]
        exact ih (fun x hx => hl x (by simp [hx]))
    exact aux ps (fun p hp => (h3 p hp).2.1)
  have hout : ∀ s r, (roles s ps).2 = some r ↔ (s, r) ∈ ps := by
    intro s r
    rcases Nat.mod_two_eq_zero_or_one s with hs | hs
    · exact roles_snd s ps h2 (fun p hp he => by have := (h3 p hp).2.2.2; omega) r
    · rw [hnone s hs]
      constructor
      · intro he; cases he
      · intro hm; have := (h3 _ hm).2.1; dsimp only at this; omega
  refine ⟨fun s r => by rw [hout, hin], ?_, ?_, ?_⟩
  · intro r
    rcases Nat.mod_two_eq_zero_or_one r with hr | hr
    · left
      rw [List.eq_nil_iff_forall_not_mem]
      intro s hs
      have := (h3 _ ((hin s r).1 hs)).2.2.2
      dsimp only at this; omega
    · exact Or.inr (hnone r hr)
  · intro r
    refine ⟨?_, ?_⟩
    · rw [roles_fst]
      exact h2.sublist ((List.filter_sublist).map _)
    · intro hne
      obtain ⟨s, hs⟩ := List.exists_mem_of_ne_nil _ hne
      have := h4 _ ((hin s r).1 hs)
      rw [roles_fst, List.length_map]
      exact this
  · rintro s ⟨r, hm⟩
    exact ⟨r, (hout s r).2 hm⟩

/-- With shuffled receivers no sender is on the node of its receiver; nodes hold ranks 2n and 2n+1. -/
theorem C162_nodes (h : Nat → Nat → Nat) (nproc ns nr : Nat) (a b : Int) (ps : List (Nat × Nat)) (hb : 0 < b)
    (e : setup h nproc ns nr a b = some ps) : ∀ p ∈ ps, p.1 / 2 ≠ p.2 / 2 := by
  obtain ⟨_, _, _, _, S, R, rfl, _, _, _, _, _, _, hc⟩ := setup_spec h nproc ns nr a b ps e
  intro p hp
  simp only [pairsOf, List.mem_map, List.mem_range] at hp
  obtain ⟨s, hs, rfl⟩ := hp
  have := hc hb
  simp only [clash, List.any_eq_false, List.mem_range, beq_iff_eq] at this
  exact this s hs

/-- Without, they are. -/
theorem C162_nodes_refuted (h : Nat → Nat → Nat) : setup h 4 2 2 (-1) (-1) = some [(0, 1), (2, 3)] := by
  simp [setup, pairsOf, List.range, List.range.loop]

/-- The seed for the receivers has no effect: all positive seeds give the same pairs. -/
theorem C162_seed_refuted (h : Nat → Nat → Nat) (nproc ns nr : Nat) (a b b' : Int) (hb : 0 < b) (hb' : 0 < b') :
    setup h nproc ns nr a b = setup h nproc ns nr a b' := by
  have e1 : b ≠ 0 := by omega
  have e2 : b' ≠ 0 := by omega
  simp only [setup, e1, e2, gt_iff_lt, hb, hb', if_true, true_and, shuffledRecvers]

/-- Messages and receives of a pair have the same tags in the same order. -/
theorem C162_messages (niter num window : Nat) (senders : List Nat) (hd : senders.Nodup) (s : Nat) (hs : s ∈ senders) :
    ((recvPosts niter num window senders).filter (fun p => p.1 == s)).map (·.2) = sendTags niter num window := by
  have one : ∀ i, ((senders.map fun x => (x, i)).filter (fun p : Nat × Nat => p.1 == s)).map (·.2) = [i] := by
    intro i
    induction senders with
    | nil => simp at hs
    | cons x l ih =>
      have hd' := List.nodup_cons.1 hd
      by_cases hx : x = s
      · subst hx
        have hn : (l.map fun y => (y, i)).filter (fun p : Nat × Nat => p.1 == x) = [] := by
          rw [List.filter_eq_nil_iff]
          intro p hp
          obtain ⟨y, hy, rfl⟩ := List.mem_map.1 hp
          simp only [beq_iff_eq]
          rintro rfl
          exact hd'.1 hy
        simp [hn]
      · have hs' : s ∈ l := by
          rcases List.mem_cons.1 hs with hh | hh
          · exact absurd hh.symm hx
          · exact hh
        have := ih hd'.2 hs'
        simpa [hx] using this
  simp only [recvPosts, sendTags, List.filter_flatMap, List.map_flatMap, one]
  congr 1
  funext i
  congr 1
  funext _
  induction List.range window with
  | nil => rfl
  | cons a l ih => simp [List.flatMap_cons, ih]

/-- How many messages of each tag: one window after the other, all of them if the windows divide the
number. -/
theorem C162_count (niter num window : Nat) (hw : num % window = 0) : (sendTags niter num window).length = niter * num := by
  have h1 : num / window * window = num := Nat.div_mul_cancel (Nat.dvd_of_mod_eq_zero hw)
  simp [sendTags, List.length_flatMap, List.map_const', List.sum_replicate_nat, h1]

/-- The array of requests is long enough exactly for up to six senders to a receiver. -/
theorem C162_requests_partial (h : Nat → Nat → Nat) (nproc ns nr : Nat) (a b : Int) (ps : List (Nat × Nat))
    (e : setup h nproc ns nr a b = some ps) :
    (∀ r, ∀ w ∈ windows, requests w (roles r ps).1 ≤ numReqs) ↔ ns / nr ≤ 6 := by
  obtain ⟨_, _, hl, _⟩ := C162_roles h nproc ns nr a b ps e
  obtain ⟨hnr, hm, hns, _, _⟩ := setup_spec h nproc ns nr a b ps e
  have hd : ns / nr * nr = ns := Nat.div_mul_cancel (Nat.dvd_of_mod_eq_zero hm)
  have hlen : ∀ r, (roles r ps).1 ≠ [] → (roles r ps).1.length = ns / nr := by
    intro r hr
    have := (hl r).2 hr
    exact Nat.eq_of_mul_eq_mul_right hnr (by rw [this, hd])
  obtain ⟨p1, _, _, p4⟩ := C162_pairs h nproc ns nr a b ps e
  constructor
  · intro hall
    cases hp : ps with
    | nil => rw [hp] at p1; simp at p1; omega
    | cons p l =>
      have hne : (roles p.2 ps).1 ≠ [] := by
        rw [roles_fst, hp]; simp
      have := hall p.2 16 (by decide)
      rw [requests, hlen _ hne, numReqs] at this
      omega
  · intro hle r w hw
    have hw16 : w ≤ 16 := by
      simp only [windows, List.mem_cons, List.not_mem_nil, or_false] at hw
      omega
    have hlen6 : (roles r ps).1.length ≤ 6 := by
      by_cases hr : (roles r ps).1 = []
      · rw [hr]; simp
      · rw [hlen r hr]; exact hle
    have := Nat.mul_le_mul hw16 hlen6
    rw [requests, numReqs]; omega

/-- Seven senders to one receiver write beyond it. -/
theorem C162_requests_refuted (h : Nat → Nat → Nat) : ∃ ps, setup h 14 7 1 (-1) (-1) = some ps ∧ numReqs < requests 16 (roles 1 ps).1 := by
  refine ⟨[(0, 1), (2, 1), (4, 1), (6, 1), (8, 1), (10, 1), (12, 1)], ?_, by decide⟩
  simp [setup, pairsOf, List.range, List.range.loop]

/-- Flows of a file: with different sources that are no destinations, parts agree as above. -/
theorem C162_flows_partial (ps : List (Nat × Nat)) (hd : (ps.map (·.1)).Nodup) (hno : ∀ p ∈ ps, ∀ q ∈ ps, p.1 ≠ q.2) (s r : Nat) :
    ((fileRoles s ps).2 = some r ↔ s ∈ (fileRoles r ps).1) ∧ (s ∈ (fileRoles r ps).1 ↔ (s, r) ∈ ps) := by
  have same : ∀ rank, fileRoles rank ps = roles rank ps := by
    intro rank
    have aux : ∀ (l : List (Nat × Nat)) (st : List Nat × Option Nat), (∀ p ∈ l, p.1 ≠ p.2) →
        l.foldl (fun st p => if p.1 = rank then (st.1, some p.2) else if p.2 = rank then (st.1 ++ [p.1], st.2) else st) st =
        l.foldl (fun st p => if p.2 = rank then (st.1 ++ [p.1], st.2) else if p.1 = rank then (st.1, some p.2) else st) st := by
      intro l
      induction l with
      | nil => intro st _; rfl
      | cons p l ih =>
        intro st hl
        have hp := hl p (by simp)
        rw [List.foldl_cons, List.foldl_cons, ih _ (fun x hx => hl x (by simp [hx]))]
        congr 1
        by_cases h1 : p.1 = rank
        · have h2 : p.2 ≠ rank := fun h => hp (h1.trans h.symm)
          simp [h1, h2]
        · simp [h1]
    exact aux ps _ (fun p hp => hno p hp p hp)
  have hin : s ∈ (roles r ps).1 ↔ (s, r) ∈ ps := by
    rw [roles_fst]
    simp only [List.mem_map, List.mem_filter, beq_iff_eq]
    constructor
    · rintro ⟨⟨x, y⟩, ⟨hm, hy⟩, hx⟩; dsimp only at hx hy; subst hx; subst hy; exact hm
    · intro hm; exact ⟨(s, r), ⟨hm, rfl⟩, rfl⟩
  rw [same, same, hin]
  refine ⟨?_, Iff.rfl⟩
  by_cases hs : ∃ p ∈ ps, p.2 = s
  · obtain ⟨p, hp, hps⟩ := hs
    have hns : ∀ q ∈ ps, q.1 ≠ s := fun q hq he => hno q hq p hp (he.trans hps.symm)
    have aux : ∀ l : List (Nat × Nat), (∀ q ∈ l, q.1 ≠ s) → (roles s l).2 = none := by
      intro l
      induction l with
      | nil => intro _; rfl
      | cons p l ih =>
        intro hl
        rw [roles_cons]
        simp only [hl p (by simp), if_false, ite_self]
        exact ih (fun x hx => hl x (by simp [hx]))
    rw [aux ps hns]
    constructor
    · intro h; cases h
    · intro hm; exact absurd rfl (hns _ hm)
  · exact roles_snd s ps hd (fun p hp he => hs ⟨p, hp, he⟩) r

/-- A rank that is destination and source is given both parts but plays only the first: it does not post the
receives, and the other waits for its acknowledgement. -/
theorem C162_flows_refuted : ∃ ps : List (Nat × Nat), (ps.map (·.1)).Nodup ∧ (fileRoles 0 ps).2 = some 1 ∧
    (fileRoles 1 ps).2 = some 2 ∧ (fileRoles 1 ps).1 = [0] :=
  ⟨[(0, 1), (1, 2)], by decide, by decide, by decide, by decide⟩

/-- Shuffled senders and receivers of twelve ranks. -/
example : setup (fun k x => (x * (5 + 3 * k)) % 13) 12 4 2 1 1 = some [(0, 3), (10, 3), (2, 11), (4, 11)] := by
  decide +kernel

end Verif.Apps.Traffic
