import Verif.Mpi.HostTime
set_option autoImplicit false

/-!
# Theorems about the time of the host that is charged
-/

namespace Verif.Mpi.HostTime

/-! ### Specification -/

/-- Calls that begin and end exactly once, or end again at once. -/
def Call.Paired : Call → Prop
  | .ordinary _ | .init _ _ => True
  | .sendrecv dst src _ _ => dst = true ∨ src = true
  | _ => False

/-- The time of a call that does not touch the timer. -/
def Call.outside : Call → Nat
  | .unstamped a => a
  | _ => 0

/-- The own work of a program. -/
def work (program : List (Nat × Call)) : Nat := (program.map Prod.fst).sum

/-! ### Proofs -/

theorem prims_append (s : St) (l l' : List Prim) : prims s (l ++ l') = prims (prims s l) l' := by unfold prims; rw [List.foldl_append]

theorem piece_paired (s : St) (p : Nat × Call) (h : p.2.Paired) (hs : s.start = s.now) :
    ∃ n, piece s p = ⟨n, n, s.charges ++ [p.1]⟩ := by
  obtain ⟨d, c⟩ := p
  obtain ⟨now, start, ch⟩ := s
  simp only at hs
  subst hs
  cases c with
  | ordinary a => exact ⟨start + d + a, by simp [piece, prims, Call.prims, begun, prim]⟩
  | init a b => exact ⟨start + d + a + b, by simp [piece, prims, Call.prims, begun, prim]⟩
  | sendrecv dst src a b =>
    cases dst <;> cases src
    · rcases h with h | h <;> cases h
    · exact ⟨start + d + a + b, by simp [piece, prims, Call.prims, begun, prim]⟩
    · exact ⟨start + d + a + b, by simp [piece, prims, Call.prims, begun, prim]⟩
    · exact ⟨start + d + a, by simp [piece, prims, Call.prims, begun, prim]⟩
  | test a b => exact absurd h (by simp [Call.Paired])
  | testall a l => exact absurd h (by simp [Call.Paired])
  | testany a l => exact absurd h (by simp [Call.Paired])
  | testsome a l => exact absurd h (by simp [Call.Paired])
  | probe a => exact absurd h (by simp [Call.Paired])
  | wtime a => exact absurd h (by simp [Call.Paired])
  | unstamped a => exact absurd h (by simp [Call.Paired])

theorem run_paired (program : List (Nat × Call)) (h : ∀ p, p ∈ program → p.2.Paired) (n : Nat) (ch : List Nat) :
    ∃ m, program.foldl piece ⟨n, n, ch⟩ = ⟨m, m, ch ++ program.map Prod.fst⟩ := by
  induction program generalizing n ch with
  | nil => exact ⟨n, by simp⟩
  | cons p l ih =>
    obtain ⟨m, hm⟩ := piece_paired ⟨n, n, ch⟩ p (h p (by simp)) rfl
    obtain ⟨m', hm'⟩ := ih (fun q hq => h q (by simp [hq])) m (ch ++ [p.1])
    exact ⟨m', by rw [List.foldl_cons, hm, hm']; simp⟩

/-- With calls that begin and end once, each call charges the work of the program since the call before, whatever the calls take, and the end
charges the rest. -/
theorem C138_charges_partial (t : Nat) (program : List (Nat × Call)) (last : Nat) (h : ∀ p, p ∈ program → p.2.Paired) :
    run t program last = program.map Prod.fst ++ [last] := by
  obtain ⟨m, hm⟩ := run_paired program h t []
  unfold run
  rw [hm]
  simp [prims, prim]

example : run 1000 [(5, .init 100 7), (3, .ordinary 50), (0, .sendrecv true false 20 1), (9, .ordinary 2)] 4 = [5, 3, 0, 9, 4] := by decide

/-- The state after part of a program: what was charged and what the next stamp will charge. -/
def owed (s : St) : Nat := s.charges.sum + (s.now - s.start)

theorem prim_start (s : St) (p : Prim) (h : s.start ≤ s.now) : (prim s p).start ≤ (prim s p).now := by
  cases p <;> simp [prim] <;> omega

theorem prim_sum (s : St) (p : Prim) : s.charges.sum ≤ (prim s p).charges.sum := by
  cases p <;> simp [prim]

theorem prims_sum (s : St) (l : List Prim) (h : s.start ≤ s.now) : s.charges.sum ≤ (prims s l).charges.sum ∧ (prims s l).start ≤ (prims s l).now := by
  induction l generalizing s with
  | nil => exact ⟨Nat.le_refl _, h⟩
  | cons p l ih => exact ⟨Nat.le_trans (prim_sum s p) (ih _ (prim_start s p h)).1, (ih _ (prim_start s p h)).2⟩

theorem begun_owed (s : St) (a : Nat) (l : List Prim) (h : s.start ≤ s.now) : owed s ≤ owed (prims s (begun a ++ l)) := by
  have : owed s ≤ (prims s (begun a ++ l)).charges.sum := by
    rw [show begun a ++ l = .stamp :: .pass a :: l from rfl]
    have := (prims_sum (prim s .stamp) (.pass a :: l) (prim_start s .stamp h)).1
    refine Nat.le_trans ?_ this
    simp [owed, prim]
  unfold owed at *
  omega

theorem piece_owed (s : St) (p : Nat × Call) (h : s.start ≤ s.now) (hp : ∀ a b, p.2 ≠ .sendrecv false false a b) :
    owed s + p.1 ≤ owed (piece s p) ∧ (piece s p).start ≤ (piece s p).now := by
  obtain ⟨d, c⟩ := p
  have h1 : (prim s (.pass d)).start ≤ (prim s (.pass d)).now := prim_start s _ h
  have h2 : owed (prim s (.pass d)) = owed s + d := by simp only [owed, prim]; omega
  refine ⟨?_, (prims_sum _ _ h1).2⟩
  rw [← h2]
  unfold piece
  cases c with
  | ordinary a => exact begun_owed _ _ _ h1
  | init a b => exact begun_owed _ _ _ h1
  | test a b => simp only [Call.prims]; rw [List.append_assoc]; exact begun_owed _ _ _ h1
  | testall a l => simp only [Call.prims]; rw [List.append_assoc]; exact begun_owed _ _ _ h1
  | testany a l =>
    simp only [Call.prims]
    split
    · rw [← List.append_nil (begun a)]; exact begun_owed _ _ _ h1
    · rw [List.append_assoc]; exact begun_owed _ _ _ h1
  | testsome a l => simp only [Call.prims]; rw [List.append_assoc]; exact begun_owed _ _ _ h1
  | probe a => simp only [Call.prims]; rw [← List.append_nil (begun a)]; exact begun_owed _ _ _ h1
  | wtime a => simp only [Call.prims]; rw [← List.append_nil (begun a)]; exact begun_owed _ _ _ h1
  | sendrecv dst src a b =>
    cases dst <;> cases src
    · exact absurd rfl (hp a b)
    · exact begun_owed _ _ _ h1
    · exact begun_owed _ _ _ h1
    · exact begun_owed _ _ _ h1
  | unstamped a => simp only [Call.prims, prims, List.foldl, owed, prim]; omega

/-- Without MPI_Sendrecv between no processes, a program is never charged less than its own work. -/
theorem C138_never_less_partial (t : Nat) (program : List (Nat × Call)) (last : Nat) (h : ∀ p, p ∈ program → ∀ a b, p.2 ≠ .sendrecv false false a b) :
    work program + last ≤ (run t program last).sum := by
  have : ∀ (s : St), s.start ≤ s.now → owed s + work program ≤ owed (program.foldl piece s) ∧ (program.foldl piece s).start ≤ (program.foldl piece s).now := by
    induction program with
    | nil => intro s hs; exact ⟨Nat.le_refl _, hs⟩
    | cons p l ih =>
      intro s hs
      have h1 := piece_owed s p hs (h p (by simp))
      have h2 := ih (fun q hq => h q (by simp [hq])) (piece s p) h1.2
      refine ⟨?_, h2.2⟩
      have : work (p :: l) = p.1 + work l := by simp [work]
      rw [List.foldl_cons]
      omega
  have := this ⟨t, t, []⟩ (Nat.le_refl _)
  unfold run
  generalize program.foldl piece ⟨t, t, []⟩ = s at this
  obtain ⟨h1, h2⟩ := this
  simp only [owed, List.sum_nil] at h1
  simp only [prims, List.foldl, prim, List.sum_append, List.sum_cons, List.sum_nil]
  omega

example : run 0 [(5, .wtime 1), (3, .test 2 4)] 1 = [5, 9, 11, 1] ∧ work [(5, .wtime 1), (3, .test 2 4)] + 1 = 9 := by decide

/-- Calls that do not touch the timer are charged with all the time that passes on the host while they block, and nothing else is. -/
theorem C138_outside (t : Nat) (program : List (Nat × Call)) (last : Nat) (h : ∀ p, p ∈ program → p.2.Paired ∨ ∃ a, p.2 = .unstamped a) :
    (run t program last).sum = work program + (program.map fun p => p.2.outside).sum + last := by
  have key : ∀ (s : St), s.start ≤ s.now → owed (program.foldl piece s) = owed s + work program + (program.map fun p => p.2.outside).sum ∧ (program.foldl piece s).start ≤ (program.foldl piece s).now := by
    induction program with
    | nil => intro s hs; exact ⟨rfl, hs⟩
    | cons p l ih =>
      intro s hs
      have h1 : owed (piece s p) = owed s + p.1 + p.2.outside ∧ (piece s p).start ≤ (piece s p).now := by
        refine ⟨?_, (prims_sum _ _ (prim_start s _ hs)).2⟩
        obtain ⟨d, c⟩ := p
        rcases h (d, c) (by simp) with hc | ⟨a, hc⟩
        · cases c with
          | ordinary a => simp [piece, owed, prims, Call.prims, begun, prim, Call.outside]; omega
          | init a b => simp [piece, owed, prims, Call.prims, begun, prim, Call.outside]; omega
          | sendrecv dst src a b =>
            cases dst <;> cases src
            · rcases hc with hc | hc <;> cases hc
            all_goals (simp [piece, owed, prims, Call.prims, begun, prim, Call.outside]; omega)
          | test a b => exact absurd hc (by simp [Call.Paired])
          | testall a l => exact absurd hc (by simp [Call.Paired])
          | testany a l => exact absurd hc (by simp [Call.Paired])
          | testsome a l => exact absurd hc (by simp [Call.Paired])
          | probe a => exact absurd hc (by simp [Call.Paired])
          | wtime a => exact absurd hc (by simp [Call.Paired])
          | unstamped a => exact absurd hc (by simp [Call.Paired])
        · simp only at hc
          subst hc
          simp [piece, owed, prims, Call.prims, prim, Call.outside]; omega
      have h2 := ih (fun q hq => h q (by simp [hq])) (piece s p) h1.2
      refine ⟨?_, h2.2⟩
      rw [List.foldl_cons, h2.1, h1.1]
      simp only [work, List.map_cons, List.sum_cons]
      omega
  have := key ⟨t, t, []⟩ (Nat.le_refl _)
  unfold run
  generalize program.foldl piece ⟨t, t, []⟩ = s at this
  obtain ⟨h1, h2⟩ := this
  simp only [owed, List.sum_nil] at h1
  simp only [prims, List.foldl, prim, List.sum_append, List.sum_cons, List.sum_nil]
  omega

example : (run 0 [(5, .init 100 1), (3, .unstamped 200), (2, .ordinary 9)] 1).sum = 211 := by decide

/-- Time in other processes while a computation or a sleep blocks is charged to this one. -/
theorem C138_blocked_refuted (t d a : Nat) (h : 0 < a) : (run t [(d, .unstamped a)] 0).sum ≠ work [(d, .unstamped a)] := by
  simp [run, prims, piece, prim, Call.prims, work]; omega

theorem wtime_fold (n d a t k : Nat) (ch : List Nat) : (List.replicate n (d, Call.wtime a)).foldl piece ⟨t + k * (d + a), t, ch⟩ =
    ⟨t + (k + n) * (d + a), t, ch ++ (List.range' k n).map fun i => i * (d + a) + d⟩ := by
  induction n generalizing k ch with
  | zero => simp
  | succ n ih =>
    rw [List.replicate_succ, List.foldl_cons]
    have e : piece ⟨t + k * (d + a), t, ch⟩ (d, .wtime a) = ⟨t + (k + 1) * (d + a), t, ch ++ [k * (d + a) + d]⟩ := by
      simp only [piece, prims, Call.prims, begun, List.foldl, prim, Nat.add_mul, Nat.one_mul]
      congr 1
      · omega
      · congr 2; omega
    rw [e, ih, List.range'_succ]
    simp only [List.map_cons, List.append_assoc, List.singleton_append]
    rw [show k + 1 + n = k + (n + 1) by omega]

/-- MPI_Wtime, and likewise MPI_Probe and MPI_Iprobe, do not end: every later one charges all the time since the last call that did, so that
n of them charge the time between them in a sum that grows with the square of n. -/
theorem C138_wtime_refuted (t n d a last : Nat) :
    run t (List.replicate n (d, .wtime a)) last = (List.range n).map (fun i => i * (d + a) + d) ++ [n * (d + a) + last] := by
  unfold run
  have := wtime_fold n d a t 0 []
  rw [Nat.zero_mul, Nat.add_zero, Nat.zero_add] at this
  rw [this, List.range_eq_range']
  simp only [prims, List.foldl, prim, List.nil_append]
  congr 2
  omega

example : run 0 (List.replicate 4 (10, .wtime 0)) 0 = [10, 20, 30, 40, 40] ∧ work (List.replicate 4 (10, .wtime 0)) = 40 := by decide

theorem tests_charges (t : Nat) (l : List Nat) (x : Nat) (ch : List Nat) : (prims ⟨t + x, t, ch⟩ (tests l)) =
    ⟨t + x + l.sum, t, ch ++ (List.range l.length).map fun i => x + (l.take i).sum⟩ := by
  induction l generalizing x ch with
  | nil => simp [tests, prims]
  | cons a l ih =>
    rw [show tests (a :: l) = begun a ++ tests l from rfl, prims_append]
    have e : prims ⟨t + x, t, ch⟩ (begun a) = ⟨t + (x + a), t, ch ++ [x]⟩ := by
      simp only [prims, begun, List.foldl, prim]
      congr 1
      · omega
      · congr 2; omega
    rw [e, ih]
    congr 1
    · simp only [List.sum_cons]; omega
    · rw [List.length_cons, List.range_succ_eq_map, List.map_cons, List.map_map, List.append_assoc]
      congr 1
      simp only [List.singleton_append, List.take_zero, List.sum_nil, Nat.add_zero]
      congr 1
      apply List.map_congr_left
      intro i _
      simp only [Function.comp, List.take_succ_cons, List.sum_cons]
      omega

theorem upTo_split (tested rest : List (Nat × Bool)) (h : (∀ r, r ∈ tested → r.2 = true) ∧ rest = [] ∨
    ∃ l r, tested = l ++ [r] ∧ (∀ q, q ∈ l → q.2 = true) ∧ r.2 = false) : upTo false (tested ++ rest) = tested.map Prod.fst := by
  induction tested with
  | nil =>
    rcases h with h | ⟨l, r, h, -, -⟩
    · rw [h.2]; rfl
    · cases l <;> cases h
  | cons q tested ih =>
    rw [List.cons_append, upTo, List.map_cons]
    rcases h with h | ⟨l, r, h, hl, hr⟩
    · rw [if_neg (by rw [h.1 q (List.mem_cons_self ..)]; decide), ih (Or.inl ⟨fun r hr => h.1 r (List.mem_cons_of_mem _ hr), h.2⟩)]
    · cases l with
      | nil =>
        cases h
        rw [if_pos hr]
        rfl
      | cons q' l =>
        rw [List.cons_append, List.cons.injEq] at h
        obtain ⟨h1, h2⟩ := h
        subst h1
        rw [if_neg (by rw [hl q (List.mem_cons_self ..)]; decide), ih (Or.inr ⟨l, r, h2, fun p hp => hl p (List.mem_cons_of_mem _ hp), hr⟩)]

/-- MPI_Testall charges the work before it once for itself and once more for every request that it tests, with all the time since; it tests the
requests up to the first that is not complete. -/
theorem C138_testall_refuted (t d a last : Nat) (tested rest : List (Nat × Bool)) (h : (∀ r, r ∈ tested → r.2 = true) ∧ rest = [] ∨
    ∃ l r, tested = l ++ [r] ∧ (∀ q, q ∈ l → q.2 = true) ∧ r.2 = false) :
    run t [(d, .testall a (tested ++ rest))] last = d :: ((List.range tested.length).map fun i => d + a + ((tested.map Prod.fst).take i).sum) ++ [last] := by
  unfold run
  simp only [List.foldl, piece, Call.prims, prims_append]
  have e : prims (prim ⟨t, t, []⟩ (.pass d)) (begun a) = ⟨t + (d + a), t, [d]⟩ := by
    simp only [prims, begun, List.foldl, prim, List.nil_append]
    congr 1
    · omega
    · congr 1; omega
  rw [e, upTo_split tested rest h, tests_charges]
  simp [prims, prim]

example : run 0 [(10, .testall 0 [(0, true), (0, true), (0, false), (0, true)])] 0 = [10, 10, 10, 10, 0] := by decide

/-- MPI_Test charges the work before it twice. -/
theorem C138_test_refuted (t d a b last : Nat) : run t [(d, .test a b)] last = [d, d + a, last] := by
  simp [run, prims, piece, prim, Call.prims, begun, tests]; omega

/-- MPI_Sendrecv between no processes charges nothing of the work before it. -/
theorem C138_sendrecv_refuted (t d a b last : Nat) : run t [(d, .sendrecv false false a b)] last = [last] := by
  simp [run, prims, piece, prim, Call.prims]

/-- A thread is charged for the time between its creation and its first instruction. -/
theorem C138_spawned_refuted (t wait d a : Nat) : spawned t wait (d, .ordinary a) = [wait + d] := by
  simp [spawned, prims, piece, prim, Call.prims, begun]; omega

end Verif.Mpi.HostTime
