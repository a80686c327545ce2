import Verif.Params.Lemmas
import Verif.Params.Spec
/-!
# Parameter files: what a file means
-/
set_option autoImplicit false

namespace Params

/-! ## Dotted keys -/

theorem splitDots_dotted (s : Str) : Dotted s (splitDots s).1 (splitDots s).2 := by
  induction s with
  | nil => exact .last (by simp)
  | cons c s ih =>
    unfold splitDots
    by_cases h : c = '.'
    · subst h
      rw [if_pos rfl]
      exact Dotted.cons (n := []) (by simp) ih
    · rw [if_neg h]
      cases hs : splitDots s with
      | mk p k =>
        rw [hs] at ih
        cases p with
        | nil =>
          cases ih with
          | last hk => exact .last (by simp only [List.mem_cons, not_or]; exact ⟨fun e => h e.symm, hk⟩)
        | cons n p =>
          cases ih with
          | cons hn hr =>
            exact Dotted.cons (n := c :: n)
              (by simp only [List.mem_cons, not_or]; exact ⟨fun e => h e.symm, hn⟩) hr

theorem splitDots_last {k : Str} (h : '.' ∉ k) : splitDots k = ([], k) := by
  induction k with
  | nil => rfl
  | cons c k ih =>
    simp only [List.mem_cons, not_or] at h
    simp [splitDots, ih h.2, Ne.symm h.1]

theorem splitDots_cons {n rest : Str} (h : '.' ∉ n) :
    splitDots (n ++ '.' :: rest) = (n :: (splitDots rest).1, (splitDots rest).2) := by
  induction n with
  | nil => simp [splitDots]
  | cons c n ih =>
    simp only [List.mem_cons, not_or] at h
    simp [splitDots, ih h.2, Ne.symm h.1]

theorem dotted_eq {s : Str} {ns : List Str} {k : Str} (h : Dotted s ns k) :
    splitDots s = (ns, k) := by
  induction h with
  | last h => exact splitDots_last h
  | cons h _ ih => rw [splitDots_cons h, ih]

/-! ## Variables -/

theorem resolve_nd (fuel : Nat) (vars : List (Str × Str)) (v : Str) (h : v.head? ≠ some '$') :
    resolve fuel vars v = .ok v := by
  unfold resolve
  split
  · simp at h
  · rfl

theorem resolve_means (fuel : Nat) : ∀ (vars : List (Str × Str)) (v w : Str),
    resolve fuel vars v = .ok w → Means (fun n => aget n vars) v w := by
  induction fuel with
  | zero =>
    intro vars v w h
    by_cases hd : v.head? = some '$'
    · cases v with
      | nil => simp at hd
      | cons c v =>
        simp only [List.head?_cons, Option.some.injEq] at hd
        subst hd
        simp [resolve] at h
    · rw [resolve_nd _ _ _ hd] at h
      cases h
      exact .plain hd
  | succ fuel ih =>
    intro vars v w h
    by_cases hd : v.head? = some '$'
    · cases v with
      | nil => simp at hd
      | cons c v =>
        simp only [List.head?_cons, Option.some.injEq] at hd
        subst hd
        unfold resolve at h
        simp only at h
        cases hg : aget v vars with
        | none => rw [hg] at h; simp at h
        | some u =>
          rw [hg] at h
          exact .var hg (ih vars u w h)
    · rw [resolve_nd _ _ _ hd] at h
      cases h
      exact .plain hd

theorem means_resolve {vars : List (Str × Str)} {v w : Str}
    (h : Means (fun n => aget n vars) v w) :
    ∃ N, ∀ fuel, N ≤ fuel → resolve fuel vars v = .ok w := by
  induction h with
  | plain h => exact ⟨0, fun fuel _ => resolve_nd fuel vars _ h⟩
  | @var n u w hg _ ih =>
    obtain ⟨N, hN⟩ := ih
    refine ⟨N + 1, fun fuel hf => ?_⟩
    cases fuel with
    | zero => omega
    | succ f =>
      unfold resolve
      simp only [hg]
      exact hN f (by omega)

/-! ## One line -/

/-- The configuration of a state of the reader. -/
def St.conf (s : St) : Conf :=
  ⟨pathOf s.up, fun p k => (closeAll s.cur s.up).lookup p k, fun n => aget n s.vars⟩

theorem conf_ext {c d : Conf} (h1 : c.path = d.path) (h2 : ∀ p k, c.val p k = d.val p k)
    (h3 : ∀ n, c.var n = d.var n) : c = d := by
  cases c; cases d
  simp only at h1 h2 h3
  rw [show _ = _ from h1, funext fun p => funext fun k => h2 p k, funext h3]

theorem closeAll_lookup (up : List (Str × Tree)) : ∀ (t : Tree) (q : List Str) (k : Str),
    (closeAll t up).lookup (pathOf up ++ q) k = t.lookup q k := by
  induction up with
  | nil => intro t q k; simp [closeAll, pathOf]
  | cons e r ih =>
    intro t q k
    obtain ⟨n, par⟩ := e
    have := ih (par.setSub n t) (n :: q) k
    rw [lookup_setSub_cons, if_pos rfl] at this
    rw [← this]
    simp [closeAll, pathOf]

theorem exec_sound {m : Mode} {fuel : Nat} {d : Dir} {s s' : St} (h : exec m fuel d s = .ok s') :
    Does m d s.conf s'.conf := by
  unfold exec at h
  cases d with
  | nothing => simp only [Except.ok.injEq] at h; subst h; exact .nothing
  | close =>
    simp only at h
    cases hu : s.up with
    | nil => rw [hu] at h; simp at h
    | cons e r =>
      obtain ⟨n, par⟩ := e
      rw [hu] at h
      simp only [Except.ok.injEq] at h
      subst h
      have := Does.close (m := m) (c := s.conf) (path := pathOf r) (n := n)
        (by simp [St.conf, hu, pathOf])
      simpa [St.conf, hu, closeAll] using this
  | opn n =>
    simp only [Except.ok.injEq] at h
    subst h
    have := Does.opn (m := m) (c := s.conf) (n := n)
    have he : (⟨s.conf.path ++ [n], s.conf.val, s.conf.var⟩ : Conf)
        = St.conf ⟨s.vars, s.cur.sub n, (n, s.cur) :: s.up⟩ := by
      apply conf_ext
      · simp [St.conf, pathOf]
      · intro p k
        simp only [St.conf, closeAll]
        exact (closeAll_same s.up _ _ (fun p k => lookup_setSub_sub s.cur n p k) p k).symm
      · intro x; rfl
    rwa [he] at this
  | var n v =>
    simp only [Except.ok.injEq] at h
    subst h
    have := Does.var (m := m) (c := s.conf) (n := n) (v := v)
    have he : (⟨s.conf.path, s.conf.val, setVarTo s.conf.var n v⟩ : Conf)
        = St.conf ⟨aset n v s.vars, s.cur, s.up⟩ := by
      apply conf_ext
      · rfl
      · intro p k; rfl
      · intro x; simp [St.conf, setVarTo, aget_aset]
    rwa [he] at this
  | assign key val =>
    simp only [parseKeyval] at h
    cases hr : resolve fuel s.vars val with
    | error e => rw [hr] at h; simp at h
    | ok w =>
      rw [hr] at h
      simp only at h
      have hm := resolve_means fuel s.vars val w hr
      have hd := splitDots_dotted key
      generalize (splitDots key).1 = ns at h hd
      generalize (splitDots key).2 = k at h hd
      cases hn : newVal m (s.cur.lookup ns k) w with
      | none => rw [addAt_none m ns k w s.cur hn] at h; simp at h
      | some x =>
        obtain ⟨t', h1, h2⟩ := addAt_some m ns k w s.cur x hn
        rw [h1] at h
        simp only [Except.ok.injEq] at h
        subst h
        have hp := closeAll_point s.up _ _ _ _ _ h2
        have hl : s.conf.val (s.conf.path ++ ns) k = s.cur.lookup ns k :=
          closeAll_lookup s.up s.cur ns k
        unfold newVal at hn
        by_cases ha : s.cur.lookup ns k = none ∨ (m.fail = false ∧ m.over = true)
        · have hx : x = some w := by
            rcases ha with ha | ⟨ha1, ha2⟩
            · rw [ha] at hn; simpa using hn.symm
            · cases hc : s.cur.lookup ns k with
              | none => rw [hc] at hn; simpa using hn.symm
              | some y => rw [hc] at hn; simpa [ha1, ha2] using hn.symm
          subst hx
          have := Does.assign (m := m) (c := s.conf) (key := key) (val := val) hd hm (by rw [hl]; exact ha)
          have he : (⟨s.conf.path, setVal s.conf.val (s.conf.path ++ ns) k (some w), s.conf.var⟩ : Conf)
              = St.conf ⟨s.vars, t', s.up⟩ := by
            apply conf_ext
            · rfl
            · intro p q; simp only [St.conf, setVal]; exact (hp p q).symm
            · intro y; rfl
          rwa [he] at this
        · simp only [not_or] at ha
          obtain ⟨ha1, ha2⟩ := ha
          cases hc : s.cur.lookup ns k with
          | none => exact absurd hc ha1
          | some y =>
            rw [hc] at hn
            simp only at hn
            by_cases hf : m.fail = true
            · simp [hf] at hn
            · have hf' : m.fail = false := by simpa using hf
              have ho : m.over = false := by
                cases ho : m.over with
                | false => rfl
                | true => exact absurd ⟨hf', ho⟩ ha2
              simp [hf', ho] at hn
              subst hn
              have := Does.leave (m := m) (c := s.conf) (key := key) (val := val) hd hm
                (by rw [hl]; exact ⟨ha1, hf', ho⟩)
              have he : s.conf = St.conf ⟨s.vars, t', s.up⟩ := by
                apply conf_ext
                · rfl
                · intro p q
                  simp only [St.conf]
                  rw [hp p q]
                  split
                  · next hh =>
                    obtain ⟨rfl, rfl⟩ := hh
                    rw [closeAll_lookup, hc]
                  · rfl
                · intro z; rfl
              rw [he] at this ⊢
              exact this
  | incl => simp at h
  | unset key =>
    simp only [Except.ok.injEq] at h
    subst h
    have hd := splitDots_dotted key
    have := Does.unset (m := m) (c := s.conf) hd
    have hp := closeAll_point s.up _ _ _ _ _ (removeAt_point (splitDots key).1 (splitDots key).2 s.cur)
    have he : (⟨s.conf.path, setVal s.conf.val (s.conf.path ++ (splitDots key).1)
        (splitDots key).2 none, s.conf.var⟩ : Conf)
        = St.conf ⟨s.vars, removeAt (splitDots key).1 (splitDots key).2 s.cur, s.up⟩ := by
      apply conf_ext
      · rfl
      · intro p q; simp only [St.conf, setVal]; exact (hp p q).symm
      · intro y; rfl
    rwa [he] at this
  | bad => simp at h

theorem means_unique {var : Str → Option Str} {v w w' : Str} (h : Means var v w)
    (h' : Means var v w') : w = w' := by
  induction h with
  | plain hp =>
    cases h' with
    | plain _ => rfl
    | var _ _ => simp at hp
  | var hg _ ih =>
    cases h' with
    | plain hp => simp at hp
    | var hg' hm => rw [hg] at hg'; cases hg'; exact ih hm

/-- What a line does is determined. -/
theorem does_unique {m : Mode} {d : Dir} {c c1 c2 : Conf} (h1 : Does m d c c1) (h2 : Does m d c c2) :
    c1 = c2 := by
  cases h1 with
  | nothing => cases h2; rfl
  | close hp =>
    cases h2 with
    | close hp' =>
      rw [hp] at hp'
      have := List.append_inj' hp' rfl
      rw [this.1]
  | opn => cases h2; rfl
  | var => cases h2; rfl
  | assign hd hm ho =>
    cases h2 with
    | assign hd' hm' _ =>
      have := dotted_eq hd
      rw [dotted_eq hd'] at this
      cases this
      rw [means_unique hm hm']
    | leave hd' hm' hn =>
      have := dotted_eq hd
      rw [dotted_eq hd'] at this
      cases this
      rcases ho with ho | ho
      · exact absurd ho hn.1
      · rw [hn.2.2] at ho; simp at ho
  | leave hd hm hn =>
    cases h2 with
    | assign hd' hm' ho =>
      have := dotted_eq hd
      rw [dotted_eq hd'] at this
      cases this
      rcases ho with ho | ho
      · exact absurd ho hn.1
      · rw [hn.2.2] at ho; simp at ho
    | leave => rfl
  | unset hd =>
    cases h2 with
    | unset hd' =>
      have := dotted_eq hd
      rw [dotted_eq hd'] at this
      cases this
      rfl

theorem resolve_mono (fuel : Nat) : ∀ (vars : List (Str × Str)) (v w : Str) (fuel' : Nat),
    fuel ≤ fuel' → resolve fuel vars v = .ok w → resolve fuel' vars v = .ok w := by
  induction fuel with
  | zero =>
    intro vars v w fuel' _ h
    unfold resolve at h
    split at h
    · simp at h
    · next hv =>
      cases h
      unfold resolve
      split
      · next n => exact absurd rfl (hv n)
      · rfl
  | succ f ih =>
    intro vars v w fuel' hf h
    cases fuel' with
    | zero => omega
    | succ f' =>
      unfold resolve at h ⊢
      split at h
      · simp only at h ⊢
        split at h
        · simp at h
        · exact ih _ _ _ f' (by omega) h
      · exact h

theorem exec_mono {m : Mode} {fuel fuel' : Nat} {d : Dir} {s s' : St} (hf : fuel ≤ fuel')
    (h : exec m fuel d s = .ok s') : exec m fuel' d s = .ok s' := by
  cases d with
  | assign key val =>
    simp only [exec, parseKeyval] at h ⊢
    cases hr : resolve fuel s.vars val with
    | error e => rw [hr] at h; simp at h
    | ok w => rw [hr] at h; rw [resolve_mono fuel _ _ _ fuel' hf hr]; exact h
  | _ => exact h

theorem exec_complete {m : Mode} {d : Dir} {s : St} {c : Conf} (h : Does m d s.conf c) :
    ∃ (N : Nat) (s' : St), (∀ fuel, N ≤ fuel → exec m fuel d s = .ok s') ∧ s'.conf = c := by
  have key : (∃ N, ∀ fuel, N ≤ fuel → ∃ s', exec m fuel d s = .ok s') := by
    cases h with
    | nothing => exact ⟨0, fun fuel _ => ⟨_, rfl⟩⟩
    | @close _ path n hp =>
      refine ⟨0, fun fuel _ => ?_⟩
      cases hu : s.up with
      | nil => simp [St.conf, hu, pathOf] at hp
      | cons e r => exact ⟨_, by simp only [exec, hu]; rfl⟩
    | opn => exact ⟨0, fun fuel _ => ⟨_, rfl⟩⟩
    | var => exact ⟨0, fun fuel _ => ⟨_, rfl⟩⟩
    | @assign _ key val w ns k hd hm ho =>
      obtain ⟨N, hN⟩ := means_resolve hm
      refine ⟨N, fun fuel hf => ?_⟩
      have hl : s.conf.val (s.conf.path ++ ns) k = s.cur.lookup ns k :=
        closeAll_lookup s.up s.cur ns k
      rw [hl] at ho
      have : newVal m (s.cur.lookup ns k) w = some (some w) := by
        unfold newVal
        rcases ho with ho | ⟨h1, h2⟩
        · rw [ho]
        · cases s.cur.lookup ns k with
          | none => rfl
          | some _ => simp [h1, h2]
      obtain ⟨t', h1, _⟩ := addAt_some m ns k w s.cur _ this
      exact ⟨_, by simp only [exec, parseKeyval, hN fuel hf, dotted_eq hd, h1]; rfl⟩
    | @leave _ key val w ns k hd hm hn =>
      obtain ⟨N, hN⟩ := means_resolve hm
      refine ⟨N, fun fuel hf => ?_⟩
      have hl : s.conf.val (s.conf.path ++ ns) k = s.cur.lookup ns k :=
        closeAll_lookup s.up s.cur ns k
      rw [hl] at hn
      have : ∃ x, newVal m (s.cur.lookup ns k) w = some x := by
        unfold newVal
        cases s.cur.lookup ns k with
        | none => exact ⟨_, rfl⟩
        | some y => exact ⟨some y, by simp [hn.2.1, hn.2.2]⟩
      obtain ⟨x, this⟩ := this
      obtain ⟨t', h1, _⟩ := addAt_some m ns k w s.cur _ this
      exact ⟨_, by simp only [exec, parseKeyval, hN fuel hf, dotted_eq hd, h1]; rfl⟩
    | unset => exact ⟨0, fun fuel _ => ⟨_, rfl⟩⟩
  obtain ⟨N, hN⟩ := key
  obtain ⟨s', hs'⟩ := hN N (Nat.le_refl _)
  exact ⟨N, s', fun fuel hf => exec_mono hf hs', does_unique (exec_sound hs') h⟩

/-! ## Whole files -/

theorem run_sound {m : Mode} {fuel : Nat} (ls : List Str) : ∀ {s s' : St},
    run m fuel ls s = .ok s' → DoesAll m (ls.map fun l => classify (trim l)) s.conf s'.conf := by
  induction ls with
  | nil => intro s s' h; simp only [run, Except.ok.injEq] at h; subst h; exact .nil
  | cons l r ih =>
    intro s s' h
    simp only [run] at h
    cases he : exec m fuel (classify (trim l)) s with
    | error e => rw [he] at h; simp at h
    | ok s1 =>
      rw [he] at h
      exact .cons (exec_sound he) (ih h)

theorem run_complete {m : Mode} (ls : List Str) : ∀ {s : St} {c : Conf},
    DoesAll m (ls.map fun l => classify (trim l)) s.conf c →
    ∃ (N : Nat) (s' : St), (∀ fuel, N ≤ fuel → run m fuel ls s = .ok s') ∧ s'.conf = c := by
  induction ls with
  | nil =>
    intro s c h
    cases h
    exact ⟨0, s, fun fuel _ => rfl, rfl⟩
  | cons l r ih =>
    intro s c h
    simp only [List.map_cons] at h
    cases h with
    | cons h1 h2 =>
      obtain ⟨N1, s1, hN1, hc1⟩ := exec_complete h1
      subst hc1
      obtain ⟨N2, s2, hN2, hc2⟩ := ih h2
      refine ⟨max N1 N2, s2, fun fuel hf => ?_, hc2⟩
      simp only [run, hN1 fuel (by omega), hN2 fuel (by omega)]

/-- **Reading a file gives what its lines say.**  When a file is read, into any scope and
in any mode, the values that result are those the lines of the file give one after the
other; and if the lines can be carried out, the file is read without an error, whatever
the depth of the stack from some depth on. -/
theorem C104_meaning (m : Mode) (text : Str) (t : Tree) :
    (∀ (fuel : Nat) (t' : Tree), parseStream m fuel text t = .ok t' →
      ∃ c, DoesAll m (directives text) t.conf c ∧ ∀ p k, t'.lookup p k = c.val p k) ∧
    (∀ c : Conf, DoesAll m (directives text) t.conf c →
      ∃ (N : Nat) (t' : Tree), (∀ fuel, N ≤ fuel → parseStream m fuel text t = .ok t') ∧
        ∀ p k, t'.lookup p k = c.val p k) := by
  have h0 : (⟨[], t, []⟩ : St).conf = t.conf := by
    apply conf_ext
    · rfl
    · intro p k; rfl
    · intro n; rfl
  constructor
  · intro fuel t' h
    unfold parseStream at h
    cases hr : run m fuel (textLines text) ⟨[], t, []⟩ with
    | error e => rw [hr] at h; simp at h
    | ok s =>
      rw [hr] at h
      simp only [Except.ok.injEq] at h
      subst h
      have := run_sound _ hr
      rw [h0] at this
      exact ⟨_, this, fun p k => rfl⟩
  · intro c h
    rw [← h0] at h
    obtain ⟨N, s', h1, h2⟩ := run_complete _ h
    refine ⟨N, closeAll s'.cur s'.up, fun fuel hf => ?_, ?_⟩
    · simp [parseStream, h1 fuel hf]
    · intro p k; rw [← h2]; rfl

end Params
