import Verif.Os.CallGraph
/-
C147: the call graph gives every tick to the functions that were active, and counts their calls.
-/
set_option autoImplicit false
namespace SST.Os.CallGraph

/-! ### Specification: what a thread did -/

/-- What a list of steps says, without the graph. -/
structure Told where
  /-- the functions that are active, oldest first -/
  active : List Nat := []
  /-- the times that were spent, each with the functions that were active -/
  spent : List (List Nat × Nat) := []
  /-- the calls that were made: caller and function -/
  made : List (Nat × Nat) := []
  /-- the times that the function on top gave to another one -/
  moved : List (Nat × Nat × Nat) := []

/-- One step. -/
def tell (t : Told) : Op → Told
  | .enter f => { t with active := t.active ++ [f], made := t.made ++ (t.active.getLast?.toList.map (·, f)) }
  | .leave => { t with active := t.active.dropLast }
  | .spend c => { t with spent := t.spent ++ [(t.active, c)] }
  | .idle g c => { t with moved := t.moved ++ (t.active.getLast?.toList.map (·, g, c)) }

/-- All steps. -/
def told (ops : List Op) : Told := ops.foldl tell {}

/-- The time spent in total. -/
def total (t : Told) : Nat := (t.spent.map (·.2)).sum

/-- The time during which a function was the innermost one. -/
def innermost (t : Told) (f : Nat) : Nat := ((t.spent.filter (fun x => x.1.getLast? = some f)).map (·.2)).sum

/-- The time during which a function was the outermost one. -/
def outermost (t : Told) (f : Nat) : Nat := ((t.spent.filter (fun x => x.1.head? = some f)).map (·.2)).sum

/-- The time during which calls of `g` by `f` were active, once for every such call. -/
def within (t : Told) (f g : Nat) : Nat := (t.spent.map (fun x => x.2 * (x.1.zip x.1.tail).count (f, g))).sum

/-- The time that `f` gave to `g`. -/
def given (t : Told) (f g : Nat) : Nat := ((t.moved.filter (fun x => x.1 = f ∧ x.2.1 = g)).map (·.2.2)).sum

/-- The time that `f` gave away. -/
def gave (t : Told) (f : Nat) : Nat := ((t.moved.filter (fun x => x.1 = f)).map (·.2.2)).sum

/-- The time that `g` was given. -/
def got (t : Told) (g : Nat) : Nat := ((t.moved.filter (fun x => x.2.1 = g)).map (·.2.2)).sum

/-- How often `f` called `g`, or gave time to it. -/
def calls (t : Told) (f g : Nat) : Nat := t.made.count (f, g) + t.moved.countP (fun x => x.1 = f ∧ x.2.1 = g)

/-- A sum over all functions. -/
def over (n : Nat) (h : Nat → Nat) : Nat := ((List.range n).map h).sum

/-! ### Sums -/

theorem over_succ (n : Nat) (h : Nat → Nat) : over (n + 1) h = over n h + h n := by
  simp [over, List.range_succ]

theorem over_congr {n : Nat} {h k : Nat → Nat} (e : ∀ x, x < n → h x = k x) : over n h = over n k := by
  unfold over
  congr 1
  exact List.map_congr_left (fun x hx => e x (List.mem_range.mp hx))

theorem over_add1 (n : Nat) (t : Nat → Nat) (f c : Nat) (hf : f < n) : over n (add1 t f c) = over n t + c := by
  induction n with
  | zero => omega
  | succ n ih =>
    rw [over_succ, over_succ]
    by_cases e : f = n
    · subst e
      rw [over_congr (k := t) (fun x hx => by simp only [add1]; rw [if_neg (by omega)])]
      simp only [add1, if_true]; omega
    · rw [ih (by omega)]
      have : add1 t f c n = t n := by simp only [add1]; rw [if_neg (fun h => e h.symm)]
      omega

theorem out_add2 (n : Nat) (t : Nat → Nat → Nat) (f g c x : Nat) (hg : g < n) :
    over n (add2 t f g c x) = over n (t x) + (if x = f then c else 0) := by
  by_cases e : x = f
  · subst e
    rw [if_pos rfl, ← over_add1 n (t x) g c hg]
    exact over_congr (fun y _ => by simp only [add2, add1, true_and])
  · rw [if_neg e]
    exact over_congr (fun y _ => by simp only [add2]; rw [if_neg (fun h => e h.1)])

theorem in_add2 (n : Nat) (t : Nat → Nat → Nat) (f g c x : Nat) (hf : f < n) :
    over n (fun y => add2 t f g c y x) = over n (fun y => t y x) + (if x = g then c else 0) := by
  by_cases e : x = g
  · subst e
    rw [if_pos rfl, ← over_add1 n (fun y => t y x) f c hf]
    exact over_congr (fun y _ => by simp only [add2, add1, and_true])
  · rw [if_neg e]
    exact over_congr (fun y _ => by simp only [add2]; rw [if_neg (fun h => e h.2)])

/-! ### The loops of `collect` -/

theorem walk_fixed (count stop : Nat) : ∀ (l : List Nat) (i : Nat) (s : St),
    (walk count stop i l s).stack = s.stack ∧ (walk count stop i l s).n = s.n ∧ (walk count stop i l s).self = s.self := by
  intro l
  induction l with
  | nil => intro i s; simp [walk]
  | cons f l ih =>
    intro i s
    cases l with
    | nil => simp [walk]
    | cons g r => simp only [walk]; exact ih _ _

theorem walk_time (count stop : Nat) : ∀ (l : List Nat) (i : Nat) (s : St) (f g : Nat),
    (walk count stop i l s).time f g = s.time f g + count * (l.zip l.tail).count (f, g) := by
  intro l
  induction l with
  | nil => intro i s f g; simp [walk]
  | cons a l ih =>
    intro i s f g
    cases l with
    | nil => simp [walk]
    | cons b r =>
      simp only [walk]
      rw [ih]
      simp only [List.tail_cons, List.zip_cons_cons, List.count_cons, beq_iff_eq, Prod.mk.injEq, add2]
      by_cases e : f = a ∧ g = b
      · rw [if_pos e, if_pos ⟨e.1.symm, e.2.symm⟩, Nat.mul_add]; omega
      · rw [if_neg e, if_neg (fun h => e ⟨h.1.symm, h.2.symm⟩), Nat.add_zero]

/-- The pairs of a list from a position on. -/
theorem walk_ncalls (count stop : Nat) : ∀ (l : List Nat) (i : Nat) (s : St) (f g : Nat),
    (walk count stop i l s).ncalls f g = s.ncalls f g + ((l.zip l.tail).drop (stop - i)).count (f, g) := by
  intro l
  induction l with
  | nil => intro i s f g; simp [walk]
  | cons a l ih =>
    intro i s f g
    cases l with
    | nil => simp [walk]
    | cons b r =>
      simp only [walk]
      rw [ih]
      simp only [List.tail_cons, List.zip_cons_cons, add2]
      by_cases hi : i < stop
      · have h1 : stop - i = (stop - (i + 1)) + 1 := by omega
        rw [h1, List.drop_succ_cons, if_pos hi]
        split <;> simp
      · have h1 : stop - i = 0 := by omega
        have h2 : stop - (i + 1) = 0 := by omega
        rw [h1, h2, List.drop_zero, List.drop_zero, if_neg hi]
        simp only [List.count_cons, beq_iff_eq, Prod.mk.injEq]
        by_cases e : f = a ∧ g = b
        · rw [if_pos e, if_pos ⟨e.1.symm, e.2.symm⟩]; omega
        · rw [if_neg e, if_neg (fun h => e ⟨h.1.symm, h.2.symm⟩)]; omega

theorem walk_out (count stop n : Nat) : ∀ (l : List Nat) (i : Nat) (s : St) (x : Nat), (∀ y ∈ l, y < n) →
    over n ((walk count stop i l s).time x) = over n (s.time x) + count * l.dropLast.count x := by
  intro l
  induction l with
  | nil => intro i s x _; simp [walk]
  | cons a l ih =>
    intro i s x h
    cases l with
    | nil => simp [walk]
    | cons b r =>
      simp only [walk]
      rw [ih _ _ _ (fun y hy => h y (List.mem_cons_of_mem _ hy)), out_add2 _ _ _ _ _ _ (h b (by simp))]
      simp only [List.dropLast_cons_cons, List.count_cons, beq_iff_eq]
      by_cases e : x = a
      · rw [if_pos e, if_pos e.symm, Nat.mul_add]; omega
      · rw [if_neg e, if_neg (fun h => e h.symm), Nat.add_zero, Nat.add_zero]

theorem walk_in (count stop n : Nat) : ∀ (l : List Nat) (i : Nat) (s : St) (x : Nat), (∀ y ∈ l, y < n) →
    over n (fun y => (walk count stop i l s).time y x) = over n (fun y => s.time y x) + count * l.tail.count x := by
  intro l
  induction l with
  | nil => intro i s x _; simp [walk]
  | cons a l ih =>
    intro i s x h
    cases l with
    | nil => simp [walk]
    | cons b r =>
      simp only [walk]
      rw [ih _ _ _ (fun y hy => h y (List.mem_cons_of_mem _ hy)), in_add2 _ _ _ _ _ _ (h a (by simp))]
      simp only [List.tail_cons, List.count_cons, beq_iff_eq]
      by_cases e : x = b
      · rw [if_pos e, if_pos e.symm, Nat.mul_add]; omega
      · rw [if_neg e, if_neg (fun h => e h.symm), Nat.add_zero, Nat.add_zero]

theorem count_ends (l : List Nat) (x : Nat) :
    l.dropLast.count x + (if l.getLast? = some x then 1 else 0) = l.tail.count x + (if l.head? = some x then 1 else 0) := by
  have h1 : l.dropLast.count x + (if l.getLast? = some x then 1 else 0) = l.count x := by
    rcases List.eq_nil_or_concat l with rfl | ⟨k, y, rfl⟩
    · simp
    · rw [List.concat_eq_append, List.dropLast_concat, List.getLast?_concat, List.count_append, List.count_singleton]
      simp only [Option.some.injEq, beq_iff_eq]
  have h2 : l.tail.count x + (if l.head? = some x then 1 else 0) = l.count x := by
    cases l with
    | nil => simp
    | cons y k => simp only [List.tail_cons, List.head?_cons, List.count_cons, Option.some.injEq, beq_iff_eq]
  omega

/-! ### The invariant -/

/-- What holds after every list of steps without an error. -/
structure Inv (n : Nat) (t : Told) (s : St) : Prop where
  hn : s.n = n
  stack : s.stack = t.active
  self : ∀ f, s.self f + gave t f = innermost t f + got t f
  total : over n s.self = total t
  time : ∀ f g, s.time f g = within t f g + given t f g
  flow : ∀ f, s.self f + over n (s.time f) = over n (fun g => s.time g f) + outermost t f
  ncalls : ∀ f g, s.ncalls f g + ((s.stack.zip s.stack.tail).drop s.last).count (f, g) ≤ calls t f g
  lastle : s.last ≤ s.stack.length

/-- The calls on a stack. -/
theorem pairs_snoc (l : List Nat) (x : Nat) :
    (l ++ [x]).zip (l ++ [x]).tail = l.zip l.tail ++ l.getLast?.toList.map (·, x) := by
  induction l with
  | nil => simp
  | cons a l ih =>
    cases l with
    | nil => simp
    | cons b r =>
      simp only [List.cons_append, List.tail_cons, List.zip_cons_cons] at ih ⊢
      rw [ih]
      simp [List.getLast?_cons_cons]

theorem pairs_length (l : List Nat) : (l.zip l.tail).length = l.length - 1 := by
  rw [List.length_zip, List.length_tail]; omega

theorem inv_init (n : Nat) : Inv n {} { n := n } := by
  have h0 : over n (fun _ => 0) = 0 := by
    unfold over; induction n with
    | zero => rfl
    | succ n ih => rw [List.range_succ, List.map_append, List.sum_append, ih]; simp
  refine ⟨rfl, rfl, ?_, h0, ?_, ?_, ?_, by simp⟩
  · intro f; simp [gave, innermost, got]
  · intro f g; simp [within, given]
  · intro f; simp [outermost]
  · intro f g; simp [calls]

theorem inv_step {n : Nat} {t : Told} {s s' : St} (h : Inv n t s) (op : Op) (e : step s op = .ok s') : Inv n (tell t op) s' := by
  cases op with
  | enter f =>
    simp only [step, push] at e
    split at e
    · cases e
      refine ⟨h.hn, by simp only [tell]; rw [h.stack], h.self, h.total, h.time, h.flow, ?_, ?_⟩
      · intro a b
        simp only [tell, calls]
        rw [pairs_snoc, List.drop_append, List.count_append, List.count_append, h.stack]
        have h1 := h.ncalls a b
        rw [h.stack] at h1
        simp only [calls] at h1
        have h2 := (List.drop_sublist (s.last - (t.active.zip t.active.tail).length) (t.active.getLast?.toList.map (·, f))).count_le (a, b)
        omega
      · have := h.lastle
        simp only [List.length_append, List.length_singleton]; omega
    · cases e
  | leave =>
    simp only [step, pop] at e
    split at e
    · cases e
    · next hne =>
      cases e
      refine ⟨h.hn, by simp only [tell]; rw [h.stack], h.self, h.total, h.time, h.flow, ?_, ?_⟩
      · intro a b
        have h1 := h.ncalls a b
        rcases List.eq_nil_or_concat s.stack with hk | ⟨k, y, hk⟩
        · exact absurd hk hne
        · rw [List.concat_eq_append] at hk
          rw [hk, pairs_snoc, List.drop_append, List.count_append] at h1
          simp only [tell, calls] at h1 ⊢
          rw [hk, List.dropLast_concat, List.length_append, List.length_singleton, Nat.add_sub_cancel]
          by_cases hl : s.last ≤ k.length
          · rw [Nat.min_eq_left hl]; omega
          · rw [Nat.min_eq_right (by omega), List.drop_eq_nil_of_le (by rw [pairs_length]; omega)]
            simp only [List.count_nil]; omega
      · have := h.lastle
        simp only [List.length_dropLast]; omega
  | spend c =>
    simp only [step, collect] at e
    cases hl : s.stack.getLast? with
    | none => rw [hl] at e; cases e
    | some f =>
      rw [hl] at e
      simp only at e
      split at e
      · next hr =>
        cases e
        have hr' : ∀ y ∈ s.stack, y < n := by
          intro y hy
          have := List.all_eq_true.mp hr y hy
          rw [h.hn] at this
          simpa using this
        have hf : f < n := hr' f (List.mem_of_getLast? hl)
        have hw := walk_fixed c (min (s.stack.length - 1) s.last) s.stack 0 s
        have ht : t.active.getLast? = some f := by rw [← h.stack]; exact hl
        refine ⟨by simp only; rw [hw.2.1]; exact h.hn, by simp only; rw [hw.1]; exact h.stack, ?_, ?_, ?_, ?_, ?_, ?_⟩
        · intro x
          have h1 := h.self x
          simp only [tell, innermost, gave, got, List.filter_append, List.map_append, List.sum_append, List.filter_cons, List.filter_nil, ht] at h1 ⊢
          rw [hw.2.2]
          simp only [add1, Option.some.injEq, decide_eq_true_eq]
          by_cases ex : x = f
          · subst ex; simp only [if_true, List.map_cons, List.map_nil, List.sum_cons, List.sum_nil]; omega
          · rw [if_neg ex, if_neg (fun q => ex q.symm)]; simp only [List.map_nil, List.sum_nil]; omega
        · simp only
          rw [hw.2.2, over_add1 _ _ _ _ hf, h.total]
          simp [total, tell, List.sum_append]
        · intro a b
          simp only
          rw [walk_time, h.time]
          simp only [tell, within, given, List.map_append, List.sum_append, List.map_cons, List.map_nil, List.sum_cons, List.sum_nil]
          rw [h.stack]; omega
        · intro x
          have h1 := h.flow x
          simp only
          rw [walk_out _ _ _ _ _ _ _ hr', walk_in _ _ _ _ _ _ _ hr', hw.2.2]
          have h2 := count_ends s.stack x
          have h3 : outermost (tell t (.spend c)) x = outermost t x + c * (if s.stack.head? = some x then 1 else 0) := by
            simp only [tell, outermost, List.filter_append, List.map_append, List.sum_append, List.filter_cons, List.filter_nil, ← h.stack, decide_eq_true_eq]
            split <;> simp
          rw [h3]
          have h4 : add1 s.self f c x = s.self x + c * (if s.stack.getLast? = some x then 1 else 0) := by
            rw [hl]
            simp only [add1, Option.some.injEq]
            by_cases ex : x = f
            · rw [if_pos ex, if_pos ex.symm]; omega
            · rw [if_neg ex, if_neg (fun q => ex q.symm)]; omega
          rw [h4]
          have h5 := congrArg (c * ·) h2
          simp only [Nat.mul_add] at h5
          omega
        · intro a b
          simp only
          rw [walk_ncalls, hw.1, List.drop_eq_nil_of_le (i := s.stack.length) (by rw [pairs_length]; omega)]
          have h1 := h.ncalls a b
          have h2 : calls (tell t (.spend c)) a b = calls t a b := rfl
          rw [h2]
          simp only [List.count_nil, Nat.sub_zero]
          by_cases hq : s.last ≤ s.stack.length - 1
          · rw [Nat.min_eq_right hq]; omega
          · rw [Nat.min_eq_left (by omega), List.drop_eq_nil_of_le (by rw [pairs_length]; omega)]
            simp only [List.count_nil]; omega
        · simp only; rw [hw.1]; omega
      · cases e
  | idle g c =>
    simp only [step, reassign] at e
    cases hl : s.stack.getLast? with
    | none => rw [hl] at e; cases e
    | some f =>
      rw [hl] at e
      simp only at e
      split at e
      · next hr =>
        rw [h.hn] at hr
        split at e
        · cases e
        · next hc =>
          cases e
          have ht : t.active.getLast? = some f := by rw [← h.stack]; exact hl
          refine ⟨h.hn, h.stack, ?_, ?_, ?_, ?_, ?_, h.lastle⟩
          · intro x
            have h1 := h.self x
            have h2 : gave (tell t (.idle g c)) x = gave t x + (if x = f then c else 0) := by
              simp only [tell, gave, ht, Option.toList, List.map_cons, List.map_nil, List.filter_append, List.map_append, List.sum_append, List.filter_cons, List.filter_nil, decide_eq_true_eq, eq_comm (a := x)]
              split <;> simp
            have h3 : got (tell t (.idle g c)) x = got t x + (if x = g then c else 0) := by
              simp only [tell, got, ht, Option.toList, List.map_cons, List.map_nil, List.filter_append, List.map_append, List.sum_append, List.filter_cons, List.filter_nil, decide_eq_true_eq, eq_comm (a := x)]
              split <;> simp
            have h4 : innermost (tell t (.idle g c)) x = innermost t x := rfl
            rw [h2, h3, h4]
            simp only [add1]
            by_cases e1 : x = f
            · subst e1
              by_cases e2 : x = g
              · simp only [if_pos e2, if_true]; omega
              · simp only [if_neg e2, if_true]; omega
            · by_cases e2 : x = g
              · simp only [if_pos e2, if_neg e1]; omega
              · simp only [if_neg e2, if_neg e1]; omega
          · have h1 : total (tell t (.idle g c)) = total t := rfl
            rw [h1, ← h.total]
            simp only
            rw [over_add1 _ _ _ _ hr.2, ← over_add1 _ _ f _ hr.1]
            refine over_congr (fun x _ => ?_)
            simp only [add1]
            by_cases e1 : x = f
            · subst e1; simp only [if_true]; omega
            · simp only [if_neg e1]
          · intro a b
            have h1 : given (tell t (.idle g c)) a b = given t a b + (if a = f ∧ b = g then c else 0) := by
              simp only [tell, given, ht, Option.toList, List.map_cons, List.map_nil, List.filter_append, List.map_append, List.sum_append, List.filter_cons, List.filter_nil, decide_eq_true_eq, eq_comm (a := a), eq_comm (a := b)]
              split <;> simp
            have h2 : within (tell t (.idle g c)) a b = within t a b := rfl
            rw [h1, h2]
            simp only [add2]
            rw [h.time]
            split <;> omega
          · intro x
            have h1 := h.flow x
            have h2 : outermost (tell t (.idle g c)) x = outermost t x := rfl
            rw [h2]
            simp only
            rw [out_add2 _ _ _ _ _ _ hr.2, in_add2 _ _ _ _ _ _ hr.1]
            simp only [add1]
            by_cases e1 : x = f
            · subst e1
              by_cases e2 : x = g
              · simp only [if_pos e2, if_true]; omega
              · simp only [if_neg e2, if_true]; omega
            · by_cases e2 : x = g
              · simp only [if_pos e2, if_neg e1]; omega
              · simp only [if_neg e2, if_neg e1]; omega
          · intro a b
            have h1 := h.ncalls a b
            have h2 : calls (tell t (.idle g c)) a b = calls t a b + (if a = f ∧ b = g then 1 else 0) := by
              simp only [tell, calls, ht, Option.toList, List.map_cons, List.map_nil, List.countP_append, List.countP_singleton, decide_eq_true_eq, eq_comm (a := a), eq_comm (a := b)]
              omega
            rw [h2]
            simp only [add2]
            split <;> omega
      · cases e

theorem inv_run (n : Nat) : ∀ (ops : List Op) (s s' : St) (t : Told), Inv n t s → ops.foldlM step s = Except.ok s' → Inv n (ops.foldl tell t) s' := by
  intro ops
  induction ops with
  | nil => intro s s' t h e; cases e; exact h
  | cons op ops ih =>
    intro s s' t h e
    rw [List.foldlM_cons] at e
    cases hs : step s op with
    | error b => rw [hs] at e; cases e
    | ok s1 => rw [hs] at e; exact ih s1 s' _ (inv_step h op hs) e

theorem inv (n : Nat) (ops : List Op) (s : St) (h : run n ops = Except.ok s) : Inv n (told ops) s := inv_run n ops _ s {} (inv_init n) h

/-! ### C147 -/

/-- C147, times: after every list of steps without an error, the own time of a function is the time
during which it was innermost, less what it gave away and plus what it was given; the time of a
call is the time during which it was active and what the caller gave to it. -/
theorem C147_times (n : Nat) (ops : List Op) (s : St) (h : run n ops = Except.ok s) (f g : Nat) :
    s.self f + gave (told ops) f = innermost (told ops) f + got (told ops) f
    ∧ s.time f g = within (told ops) f g + given (told ops) f g :=
  ⟨(inv n ops s h).self f, (inv n ops s h).time f g⟩

/-- C147, nothing is lost: the own times of all functions add up to the time that was spent. -/
theorem C147_total (n : Nat) (ops : List Op) (s : St) (h : run n ops = Except.ok s) : over n s.self = total (told ops) :=
  (inv n ops s h).total

/-- C147, the graph is consistent: own time and time of the calls made by a function are the
time of the calls of it and the time during which it was outermost. -/
theorem C147_flow (n : Nat) (ops : List Op) (s : St) (h : run n ops = Except.ok s) (f : Nat) :
    s.self f + over n (s.time f) = over n (fun g => s.time g f) + outermost (told ops) f :=
  (inv n ops s h).flow f

/-- C147 (partial: an upper bound).  No more calls are counted than were made. -/
theorem C147_calls_partial (n : Nat) (ops : List Op) (s : St) (h : run n ops = Except.ok s) (f g : Nat) :
    s.ncalls f g ≤ calls (told ops) f g := by
  have := (inv n ops s h).ncalls f g
  omega

/-- A thread: `main` (0) spends time, calls 1, which calls 2, and waits. -/
def sample : List Op := [.enter 0, .enter 1, .spend 5, .enter 2, .spend 7, .leave, .spend 1, .idle 3 4, .leave, .spend 2]

/-- The hypotheses are met, and all four kinds of times are seen. -/
example : (∃ s, run 4 sample = Except.ok s ∧ s.self 1 = 2 ∧ s.self 3 = 4 ∧ s.time 0 1 = 13 ∧ s.time 1 2 = 7 ∧ s.ncalls 0 1 = 1)
    ∧ total (told sample) = 15 ∧ gave (told sample) 1 = 4 ∧ innermost (told sample) 1 = 6 ∧ outermost (told sample) 0 = 15 :=
  ⟨⟨_, rfl, by decide, by decide, by decide, by decide, by decide⟩, by decide, by decide, by decide, by decide⟩

/-- `k` calls of a function, each of which spends time. -/
def loop (k : Nat) : List Op := (List.replicate k [Op.enter 1, .spend 1, .leave]).flatten

/-- C147 refuted for calls: a function is called `k + 1` times by `main` and spends time in every
call, one call is counted. -/
theorem C147_calls_refuted (k : Nat) : ∃ s, run 2 (.enter 0 :: loop (k + 1)) = Except.ok s
    ∧ calls (told (.enter 0 :: loop (k + 1))) 0 1 = k + 1 ∧ s.time 0 1 = k + 1 ∧ s.ncalls 0 1 = 1 := by
  have key : ∀ (k : Nat) (s : St), s.stack = [0] → s.last = 1 → s.n = 2 →
      ∃ s', (loop k).foldlM step s = Except.ok s' ∧ s'.time 0 1 = s.time 0 1 + k ∧ s'.ncalls 0 1 = s.ncalls 0 1 := by
    intro k
    induction k with
    | zero => intro s _ _ _; exact ⟨s, rfl, rfl, rfl⟩
    | succ k ih =>
      intro s h1 h2 h3
      obtain ⟨st, la, n, se, ti, nc⟩ := s
      simp only at h1 h2 h3
      subst h1 h2 h3
      obtain ⟨s', e, h4, h5⟩ := ih ⟨[0], 1, 2, add1 se 1 1, add2 ti 0 1 1, add2 nc 0 1 0⟩ rfl rfl rfl
      refine ⟨s', ?_, ?_, ?_⟩
      · rw [← e]; simp only [loop, List.replicate_succ, List.flatten_cons, List.foldlM_append]; rfl
      · rw [h4]; simp only [add2, and_self, if_true]; omega
      · rw [h5]; simp only [add2, and_self, if_true]; omega
  have keyT : ∀ (k : Nat) (t : Told), t.active = [0] → calls ((loop k).foldl tell t) 0 1 = calls t 0 1 + k := by
    intro k
    induction k with
    | zero => intro t _; rfl
    | succ k ih =>
      intro t h
      obtain ⟨ac, sp, ma, mo⟩ := t
      simp only at h
      subst h
      simp only [loop, List.replicate_succ, List.flatten_cons, List.foldl_append]
      rw [show (List.replicate k [Op.enter 1, .spend 1, .leave]).flatten = loop k from rfl, ih _ rfl]
      simp [tell, calls]
      omega
  obtain ⟨s', e, h1, h2⟩ := key k ⟨[0], 1, 2, add1 (fun _ => 0) 1 1, add2 (fun _ _ => 0) 0 1 1, add2 (fun _ _ => 0) 0 1 1⟩ rfl rfl rfl
  refine ⟨s', ?_, ?_, ?_, ?_⟩
  · rw [← e]; simp only [run, loop, List.replicate_succ, List.flatten_cons, List.cons_append, List.nil_append]; rfl
  · have := keyT (k + 1) (tell {} (.enter 0)) rfl
    rw [show told (.enter 0 :: loop (k + 1)) = (loop (k + 1)).foldl tell (tell {} (.enter 0)) from rfl, this]
    simp [tell, calls]
  · rw [h1]; simp only [add2, and_self, if_true]; omega
  · rw [h2]; rfl

/-- What a thread may do next: known functions, at most `d` deep, time only inside a function. -/
def Sane (n d : Nat) (t : Told) : Op → Prop
  | .enter f => f < n ∧ t.active.length < d
  | .leave => t.active ≠ []
  | .spend _ => t.active ≠ []
  | .idle _ _ => False

/-- All steps are sane. -/
def SaneAll (n d : Nat) : Told → List Op → Prop
  | _, [] => True
  | t, op :: ops => Sane n d t op ∧ SaneAll n d (tell t op) ops

/-- C147, no errors: a thread whose functions are known and at most 50 deep is followed to the
end. -/
theorem C147_followed (n : Nat) (ops : List Op) (h : SaneAll n 50 {} ops) : ∃ s, run n ops = Except.ok s := by
  have key : ∀ (ops : List Op) (t : Told) (s : St), s.stack = t.active → s.n = n → (∀ f ∈ t.active, f < n) → SaneAll n 50 t ops →
      ∃ s', ops.foldlM step s = Except.ok s' := by
    intro ops
    induction ops with
    | nil => intro t s _ _ _ _; exact ⟨s, rfl⟩
    | cons op ops ih =>
      intro t s h1 h2 h3 h4
      obtain ⟨h4, h5⟩ := h4
      rw [List.foldlM_cons]
      cases op with
      | enter f =>
        have hs : step s (.enter f) = .ok { s with stack := s.stack ++ [f] } := if_pos (by rw [h1]; exact h4.2)
        rw [hs]
        refine ih (tell t (.enter f)) _ ?_ h2 ?_ h5
        · simp only [tell]; rw [h1]
        · intro g hg
          simp only [tell, List.mem_append, List.mem_singleton] at hg
          rcases hg with hg | rfl
          · exact h3 g hg
          · exact h4.1
      | leave =>
        have hs : step s .leave = .ok { s with stack := s.stack.dropLast, last := min s.last (s.stack.length - 1) } := if_neg (by rw [h1]; exact h4)
        rw [hs]
        refine ih (tell t .leave) _ ?_ h2 ?_ h5
        · simp only [tell]; rw [h1]
        · intro g hg
          exact h3 g (List.dropLast_subset _ hg)
      | spend c =>
        cases hl : s.stack.getLast? with
        | none => exact absurd (List.getLast?_eq_none_iff.mp hl) (by rw [h1]; exact h4)
        | some f =>
          have hall : s.stack.all (· < s.n) = true := by
            rw [List.all_eq_true]; intro x hx; rw [h2]; simpa using h3 x (by rw [← h1]; exact hx)
          have hw := walk_fixed c (min (s.stack.length - 1) s.last) s.stack 0 s
          simp only [step, collect, hl, hall, if_true]
          refine ih (tell t (.spend c)) _ ?_ ?_ h3 h5
          · simp only [tell]; rw [hw.1, h1]
          · simp only; rw [hw.2.1, h2]
      | idle g c => exact absurd h4 id
  exact key ops {} _ rfl rfl (by simp) h

/-- The hypothesis is met by a thread that goes 50 deep. -/
example : SaneAll 1 50 {} (List.replicate 50 (.enter 0) ++ [.spend 3]) := by
  have key : ∀ (k : Nat) (t : Told), t.active.length + k ≤ 50 → 0 < t.active.length + k →
      SaneAll 1 50 t (List.replicate k (.enter 0) ++ [.spend 3]) := by
    intro k
    induction k with
    | zero => intro t _ h; exact ⟨by intro e; simp [e] at h, trivial⟩
    | succ k ih =>
      intro t h _
      refine ⟨⟨by omega, by omega⟩, ih _ ?_ ?_⟩
      · simp only [tell, List.length_append, List.length_singleton]; omega
      · simp only [tell, List.length_append, List.length_singleton]; omega
  exact key 50 {} (by decide) (by decide)

/-- C147 refuted for deep calls: one more function, and the stack is left. -/
theorem C147_deep_refuted (n f : Nat) : run n (List.replicate 51 (.enter f)) = Except.error .stack := by
  have key : ∀ (k : Nat) (s : St), s.stack.length ≤ depth → (List.replicate (depth - s.stack.length + 1 + k) (Op.enter f)).foldlM step s = Except.error .stack := by
    intro k s h
    generalize hd : depth - s.stack.length = d
    induction d generalizing s with
    | zero =>
      have hs : step s (.enter f) = .error .stack := if_neg (by omega)
      rw [show 0 + 1 + k = k + 1 by omega, List.replicate_succ, List.foldlM_cons, hs]; rfl
    | succ d ih =>
      have hs : step s (.enter f) = .ok { s with stack := s.stack ++ [f] } := if_pos (by omega)
      rw [show d + 1 + 1 + k = (d + 1 + k) + 1 by omega, List.replicate_succ, List.foldlM_cons, hs]
      exact ih _ (by simp only [List.length_append, List.length_singleton]; omega) (by simp only [List.length_append, List.length_singleton]; omega)
  exact key 0 { n := n } (Nat.zero_le _)

/-! ### The output -/

theorem find_ok (s : St) (f : Nat) : (List.range s.n).find? (fun g => s.n ≤ g || s.time f g ≠ 0) = (List.range s.n).find? (fun g => s.time f g ≠ 0) := by
  have : ∀ (l : List Nat), (∀ g ∈ l, g < s.n) → l.find? (fun g => s.n ≤ g || s.time f g ≠ 0) = l.find? (fun g => s.time f g ≠ 0) := by
    intro l
    induction l with
    | nil => intro _; rfl
    | cons a l ih =>
      intro h
      have h1 : decide (s.n ≤ a) = false := decide_eq_false (by have := h a (by simp); omega)
      rw [List.find?_cons, List.find?_cons, h1, Bool.false_or, ih (fun g hg => h g (List.mem_cons_of_mem _ hg))]
  exact this _ (fun g hg => List.mem_range.mp hg)

theorem included_ok (s : St) (f : Nat) : ∃ b, included s s.n f = .ok b ∧ (b = true ↔ s.self f ≠ 0 ∨ ∃ g, g < s.n ∧ s.time f g ≠ 0) := by
  unfold included
  rw [find_ok]
  cases h : (List.range s.n).find? (fun g => s.time f g ≠ 0) with
  | none =>
    refine ⟨_, rfl, ?_⟩
    have := List.find?_eq_none.mp h
    simp only [decide_eq_true_eq]
    constructor
    · exact Or.inl
    · rintro (h1 | ⟨g, hg, hg'⟩)
      · exact h1
      · exact absurd (by simpa using hg') (this g (List.mem_range.mpr hg))
  | some g =>
    have h1 := List.mem_range.mp (List.mem_of_find?_eq_some h)
    have h2 := List.find?_some h
    refine ⟨true, if_neg (by omega), ?_⟩
    simp only [true_iff]
    exact Or.inr ⟨g, h1, by simpa using h2⟩

theorem dump_fold (s : St) : ∀ (l : List Nat) (out : List Line), ∃ r,
    l.foldlM (fun out f => do
      let b ← included s s.n f
      pure (if b then out ++ [summary s f] else out)) out = Except.ok (ε := Bad) r
    ∧ r = out ++ (l.filter (fun f => s.self f ≠ 0 ∨ ∃ g, g < s.n ∧ s.time f g ≠ 0)).map (summary s) := by
  intro l
  induction l with
  | nil => intro out; exact ⟨out, rfl, by simp⟩
  | cons f l ih =>
    intro out
    obtain ⟨b, hb, hb'⟩ := included_ok s f
    rw [List.foldlM_cons, hb]
    obtain ⟨r, hr, hr'⟩ := ih (if b then out ++ [summary s f] else out)
    refine ⟨r, hr, ?_⟩
    rw [hr', List.filter_cons]
    cases b with
    | true => rw [if_pos (decide_eq_true (hb'.mp rfl))]; simp
    | false =>
      have : ¬ (s.self f ≠ 0 ∨ ∃ g, g < s.n ∧ s.time f g ≠ 0) := fun h => by simpa using hb'.mpr h
      rw [decide_eq_false this]; simp

theorem sum_filter_zero (h : Nat → Nat) (q : Nat → Bool) : ∀ l : List Nat, (∀ x ∈ l, q x = false → h x = 0) →
    ((l.filter q).map h).sum = (l.map h).sum := by
  intro l
  induction l with
  | nil => intro _; rfl
  | cons a l ih =>
    intro hz
    have := ih (fun x hx => hz x (List.mem_cons_of_mem _ hx))
    rw [List.filter_cons]
    split
    · simp only [List.map_cons, List.sum_cons]; rw [this]
    · next hq => simp only [List.map_cons, List.sum_cons]; rw [this, hz a (by simp) (by simpa using hq)]; omega

/-- C147, the output: when no functions have become known since the graph was made, it has a line for
exactly the functions with time, in order, and the own times in it add up to the time that
was spent. -/
theorem C147_written_partial (n : Nat) (ops : List Op) (s : St) (h : run n ops = Except.ok s) :
    ∃ lines, dump s n = Except.ok lines
      ∧ lines.map (·.fn) = (List.range n).filter (fun f => s.self f ≠ 0 ∨ ∃ g, g < n ∧ s.time f g ≠ 0)
      ∧ (lines.map (·.self)).sum = total (told ops)
      ∧ ∀ l ∈ lines, l.calls.map (fun c => (c.1, c.2.2)) = ((List.range n).filter (fun g => s.time l.fn g ≠ 0)).map (fun g => (g, s.time l.fn g)) := by
  have hi := inv n ops s h
  obtain ⟨r, h1, h2⟩ := dump_fold s (List.range s.n) []
  rw [List.nil_append] at h2
  refine ⟨r, ?_, ?_, ?_, ?_⟩
  · rw [← h1]; unfold dump; rw [hi.hn]
  · rw [h2, List.map_map, hi.hn]
    exact (List.map_congr_left (fun _ _ => rfl)).trans (List.map_id _)
  · rw [h2, List.map_map, ← hi.total, hi.hn]
    refine sum_filter_zero s.self _ _ (fun x _ hx => ?_)
    simp only [decide_eq_false_iff_not, not_or] at hx
    omega
  · intro l hl
    rw [h2] at hl
    obtain ⟨f, _, rfl⟩ := List.mem_map.mp hl
    simp only [summary, hi.hn]
    induction List.range n with
    | nil => rfl
    | cons a k ih =>
      rw [List.filterMap_cons, List.filter_cons]
      by_cases hz : s.time f a ≠ 0
      · simp only [if_pos hz, decide_eq_true hz, if_true, List.map_cons]; rw [ih]
      · rw [if_neg hz, if_neg (by simpa using hz)]; exact ih

/-- The output of the sample. -/
example : ∃ s lines, run 4 sample = Except.ok s ∧ dump s 4 = Except.ok lines ∧ lines.map (·.fn) = [0, 1, 2, 3] :=
  ⟨_, _, rfl, rfl, by decide⟩

/-- C147 refuted for the output: when another executable with functions of its own was loaded after
the graph was made, the output of a thread reads beyond its tables. -/
theorem C147_late_refuted (k : Nat) : ∃ s, run 1 [.enter 0, .spend 1] = Except.ok s ∧ dump s (1 + (k + 1)) = Except.error .range := by
  refine ⟨_, rfl, ?_⟩
  have : included (walk 1 0 0 [0] ⟨[0], 1, 1, add1 (fun _ => 0) 0 1, fun _ _ => 0, fun _ _ => 0⟩) (1 + (k + 1)) 0 = .error .range := by
    unfold included
    have : (List.range (1 + (k + 1))) = 0 :: 1 :: (List.range k).map (· + 2) := by
      rw [show 1 + (k + 1) = k + 1 + 1 by omega, List.range_succ_eq_map, List.range_succ_eq_map]
      simp [Function.comp_def]
    rw [this]
    rfl
  show (do let b ← included _ (1 + (k + 1)) 0; pure _ : Except Bad (List Line)) >>= _ = _
  exact (congrArg (fun x : Except Bad Bool => (do let b ← x; pure (if b then [] ++ [summary _ 0] else []) : Except Bad (List Line)) >>= fun out => ([] : List Nat).foldlM _ out) this)

end SST.Os.CallGraph
