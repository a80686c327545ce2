import Verif.Params.Core
import Verif.Params.Lemmas
import Verif.Params.SendProps
/-
C155: under SST core the components and the topology get the parameters of the input.
-/
set_option autoImplicit false
namespace Params.Core

/-! Dictionaries. -/

theorem get_put (k m : Str) (v : Val) : ∀ d : Dict, (d.put k v).get? m = if m = k then some v else d.get? m
  | .nil => by simp [Dict.put, Dict.get?, eq_comm]
  | .cons a u r => by
    have ih := get_put k m v r
    by_cases h : a = k
    · subst h
      by_cases h2 : m = a
      · subst h2; simp [Dict.put, Dict.get?]
      · have h3 : a ≠ m := fun h => h2 h.symm
        simp [Dict.put, Dict.get?, h2, h3]
    · by_cases h2 : a = m
      · subst h2; simp [Dict.put, Dict.get?, h]
      · simp [Dict.put, Dict.get?, h, h2, ih]

theorem get_del (k m : Str) : ∀ d : Dict, (d.del k).get? m = if m = k then none else d.get? m
  | .nil => by simp [Dict.del, Dict.get?]
  | .cons a u r => by
    have ih := get_del k m r
    by_cases h : a = k
    · subst h
      by_cases h2 : m = a
      · subst h2; simp [Dict.del, ih]
      · have h3 : a ≠ m := fun h => h2 h.symm
        simp [Dict.del, Dict.get?, h2, h3, ih]
    · by_cases h2 : a = m
      · subst h2; simp [Dict.del, Dict.get?, h]
      · simp [Dict.del, Dict.get?, h, h2, ih]

theorem get_none {k : Str} : ∀ {d : Dict}, k ∉ d.keys → d.get? k = none
  | .nil, _ => rfl
  | .cons a u r, h => by
    simp only [Dict.keys, List.mem_cons, not_or] at h
    have : a ≠ k := fun e => h.1 e.symm
    simp [Dict.get?, this, get_none h.2]

theorem keys_put (k x : Str) (v : Val) : ∀ d : Dict, x ∈ (d.put k v).keys ↔ x = k ∨ x ∈ d.keys
  | .nil => by simp [Dict.put, Dict.keys]
  | .cons a u r => by
    by_cases h : a = k
    · subst h; simp [Dict.put, Dict.keys]
    · simp only [Dict.put, h, if_false, Dict.keys, List.mem_cons, keys_put k x v r]
      constructor
      · rintro (h1 | h1 | h1)
        · exact .inr (.inl h1)
        · exact .inl h1
        · exact .inr (.inr h1)
      · rintro (h1 | h1 | h1)
        · exact .inr (.inl h1)
        · exact .inl h1
        · exact .inr (.inr h1)

theorem keys_del (k x : Str) : ∀ d : Dict, x ∈ (d.del k).keys → x ∈ d.keys
  | .nil => by simp [Dict.del]
  | .cons a u r => by
    by_cases h : a = k
    · simp only [Dict.del, h, if_true, Dict.keys, List.mem_cons]
      exact fun hx => .inr (keys_del k x r hx)
    · simp only [Dict.del, h, if_false, Dict.keys, List.mem_cons]
      exact fun hx => hx.imp id (keys_del k x r)

/-! Good dictionaries: no key twice, no dots in keys, no dollar sign at the front of values. -/

mutual
/-- The same for a value. -/
def Val.Good : Val → Prop
  | .str v => v.head? ≠ some '$'
  | .dict d => d.Good
/-- No key twice, no dots in keys, no dollar sign at the front of values, at all depths. -/
def Dict.Good : Dict → Prop
  | .nil => True
  | .cons k v r => '.' ∉ k ∧ k ∉ r.keys ∧ v.Good ∧ r.Good
end

theorem good_put {k : Str} {v : Val} (hk : '.' ∉ k) (hv : v.Good) : ∀ {d : Dict}, d.Good → (d.put k v).Good
  | .nil, _ => by simp [Dict.put, Dict.Good, Dict.keys, hk, hv]
  | .cons a u r, h => by
    simp only [Dict.Good] at h
    by_cases e : a = k
    · subst e
      simp only [Dict.put, if_true, Dict.Good]
      exact ⟨hk, h.2.1, hv, h.2.2.2⟩
    · simp only [Dict.put, e, if_false, Dict.Good]
      refine ⟨h.1, ?_, h.2.2.1, good_put hk hv h.2.2.2⟩
      rw [keys_put]
      rintro (h1 | h1)
      · exact e h1
      · exact h.2.1 h1

theorem good_del {k : Str} : ∀ {d : Dict}, d.Good → (d.del k).Good
  | .nil, _ => by simp [Dict.del, Dict.Good]
  | .cons a u r, h => by
    simp only [Dict.Good] at h
    by_cases e : a = k
    · simp only [Dict.del, e, if_true]
      exact good_del h.2.2.2
    · simp only [Dict.del, e, if_false, Dict.Good]
      exact ⟨h.1, fun hx => h.2.1 (keys_del k a r hx), h.2.2.1, good_del h.2.2.2⟩

theorem good_get {k : Str} {v : Val} : ∀ {d : Dict}, d.Good → d.get? k = some v → '.' ∉ k ∧ v.Good
  | .nil, _, e => by cases e
  | .cons a u r, h, e => by
    simp only [Dict.Good] at h
    by_cases ha : a = k
    · simp only [Dict.get?, ha, if_true, Option.some.injEq] at e
      subst e; subst ha
      exact ⟨h.1, h.2.2.1⟩
    · simp only [Dict.get?, ha, if_false] at e
      exact good_get h.2.2.2 e

theorem good_lookup {v : Str} (p : List Str) : ∀ {k : Str} {d : Dict}, d.Good → d.lookup p k = some v → ∀ x ∈ p ++ [k], '.' ∉ x := by
  induction p with
  | nil =>
    intro k d hd h x hx
    simp only [List.nil_append, List.mem_singleton] at hx
    subst hx
    unfold Dict.lookup at h
    split at h
    · rename_i w hw; exact (good_get hd hw).1
    · cases h
  | cons n p ih =>
    intro k d hd h x hx
    unfold Dict.lookup at h
    split at h
    · rename_i u hu
      have hg := good_get hd hu
      rcases List.mem_cons.mp (by simpa using hx : x ∈ n :: (p ++ [k])) with e | e
      · subst e; exact hg.1
      · exact ih (by simpa [Val.Good] using hg.2) h x e
    · cases h

/-! Keys with dots. -/

theorem splitDots_free {a : Str} (h : '.' ∉ a) : splitDots a = ([], a) := by
  induction a with
  | nil => rfl
  | cons c a ih =>
    simp only [List.mem_cons, not_or] at h
    have hc : c ≠ '.' := fun e => h.1 e.symm
    simp [splitDots, hc, ih h.2]

theorem splitDots_dot {a : Str} (h : '.' ∉ a) (s : Str) : splitDots (a ++ '.' :: s) = (a :: (splitDots s).1, (splitDots s).2) := by
  induction a with
  | nil => simp [splitDots]
  | cons c a ih =>
    simp only [List.mem_cons, not_or] at h
    have hc : c ≠ '.' := fun e => h.1 e.symm
    simp [splitDots, hc, ih h.2]

theorem splitDots_join (p : List Str) (k : Str) (h : ∀ x ∈ p ++ [k], '.' ∉ x) : splitDots (join (p ++ [k])) = (p, k) := by
  induction p with
  | nil => exact splitDots_free (h k (by simp))
  | cons n p ih =>
    have ih := ih (fun x hx => h x (by simp at hx ⊢; exact .inr hx))
    cases p with
    | nil =>
      show splitDots (n ++ '.' :: join [k]) = _
      rw [splitDots_dot (h n (by simp)), show join [k] = join ([] ++ [k]) from rfl, ih]
    | cons m p =>
      show splitDots (n ++ '.' :: join (m :: p ++ [k])) = _
      rw [splitDots_dot (h n (by simp)), ih]

/-! From scopes to dictionaries. -/

mutual
/-- Input that keeps its meaning in Python: in no scope is there a key twice, a key that is also the name of
a namespace, a name with a dot, or a value with a dollar sign at the front. -/
def _root_.Params.Tree.Proper : Tree → Prop
  | .node ps fs => (ps.map (·.1)).Nodup ∧ (∀ e ∈ ps, '.' ∉ e.1 ∧ e.2.head? ≠ some '$' ∧ e.1 ∉ fs.names) ∧ fs.Proper
/-- The same for all namespaces. -/
def _root_.Params.Forest.Proper : Forest → Prop
  | .nil => True
  | .cons n t r => '.' ∉ n ∧ n ∉ r.names ∧ t.Proper ∧ r.Proper
end

theorem forest_get {n : Str} {t : Tree} : ∀ {fs : Forest}, fs.get? n = some t → n ∈ fs.names
  | .nil, h => by cases h
  | .cons m u r, h => by
    by_cases e : m = n
    · simp [Forest.names, e]
    · simp only [Forest.get?, e, if_false] at h
      simp [Forest.names, forest_get h]

theorem proper_get {n : Str} {t : Tree} : ∀ {fs : Forest}, fs.Proper → fs.get? n = some t → t.Proper
  | .nil, _, e => by cases e
  | .cons m u r, h, e => by
    simp only [Forest.Proper] at h
    by_cases hm : m = n
    · simp only [Forest.get?, hm, if_true, Option.some.injEq] at e
      subst e; exact h.2.2.1
    · simp only [Forest.get?, hm, if_false] at e
      exact proper_get h.2.2.2 e

theorem addPars_get (x : Str) (ps : List (Str × Str)) : ∀ (d : Dict), (ps.map (·.1)).Nodup →
    (addPars d ps).get? x = match aget x ps with | some v => some (.str v) | none => d.get? x := by
  induction ps with
  | nil => intro d _; rfl
  | cons e ps ih =>
    intro d hn
    obtain ⟨a, b⟩ := e
    simp only [List.map_cons, List.nodup_cons] at hn
    rw [addPars, ih _ hn.2]
    by_cases h : a = x
    · subst h
      have : aget a ps = none := aget_new hn.1
      simp [aget, this, get_put]
    · have h' : x ≠ a := fun e => h e.symm
      simp [aget, h, get_put, h']

theorem addTo_get (x : Str) : ∀ (fs : Forest) (d : Dict), fs.Proper →
    (fs.addTo d).get? x = match fs.get? x with | some t => some (.dict t.toDict) | none => d.get? x
  | .nil, d, _ => by simp [Forest.addTo, Forest.get?]
  | .cons n t r, d, h => by
    simp only [Forest.Proper] at h
    rw [Forest.addTo, addTo_get x r _ h.2.2.2]
    by_cases e : n = x
    · subst e
      have : r.get? n = none := get_new h.2.1
      simp [Forest.get?, this, get_put]
    · have e' : x ≠ n := fun h => e h.symm
      simp [Forest.get?, e, get_put, e']

theorem good_addPars (ps : List (Str × Str)) : ∀ {d : Dict}, d.Good → (∀ e ∈ ps, '.' ∉ e.1 ∧ e.2.head? ≠ some '$') → (addPars d ps).Good := by
  induction ps with
  | nil => intro d h _; exact h
  | cons e ps ih =>
    intro d h hp
    have he := hp e (List.mem_cons_self ..)
    exact ih (good_put he.1 (by simpa [Val.Good] using he.2) h) (fun x hx => hp x (List.mem_cons_of_mem _ hx))

mutual
theorem good_toDict : ∀ {t : Tree}, t.Proper → t.toDict.Good
  | .node ps fs, h => by
    simp only [Tree.Proper] at h
    rw [Tree.toDict]
    exact good_addTo h.2.2 (good_addPars ps (by simp [Dict.Good]) (fun e he => ⟨(h.2.1 e he).1, (h.2.1 e he).2.1⟩))
theorem good_addTo : ∀ {fs : Forest} {d : Dict}, fs.Proper → d.Good → (fs.addTo d).Good
  | .nil, d, _, hd => by rw [Forest.addTo]; exact hd
  | .cons n t r, d, h, hd => by
    simp only [Forest.Proper] at h
    rw [Forest.addTo]
    exact good_addTo h.2.2.2 (good_put h.1 (by rw [Val.Good]; exact good_toDict h.2.2.1) hd)
end

theorem aget_mem {k v : Str} {ps : List (Str × Str)} (h : aget k ps = some v) : (k, v) ∈ ps := by
  induction ps with
  | nil => cases h
  | cons e ps ih =>
    obtain ⟨a, b⟩ := e
    by_cases ha : a = k
    · simp only [aget, ha, if_true, Option.some.injEq] at h
      simp [ha, h]
    · simp only [aget, ha, if_false] at h
      exact List.mem_cons_of_mem _ (ih h)

/-- C155: Python sees every value of the input at its place, and no other. -/
theorem C155_python_partial (p : List Str) (k : Str) (t : Tree) (h : t.Proper) : t.toDict.lookup p k = t.lookup p k := by
  induction p generalizing t with
  | nil =>
    obtain ⟨ps, fs⟩ := t
    simp only [Tree.Proper] at h
    rw [Dict.lookup, Tree.toDict, addTo_get _ _ _ h.2.2, addPars_get _ _ _ h.1, Tree.lookup]
    cases hf : fs.get? k with
    | none =>
      cases ha : aget k ps with
      | none => simp [Dict.get?]
      | some v => simp
    | some u =>
      have hn := forest_get hf
      cases ha : aget k ps with
      | none => simp
      | some v => exact ((h.2.1 _ (aget_mem ha)).2.2 hn).elim
  | cons n p ih =>
    obtain ⟨ps, fs⟩ := t
    simp only [Tree.Proper] at h
    rw [Dict.lookup, Tree.toDict, addTo_get _ _ _ h.2.2, addPars_get _ _ _ h.1, Tree.lookup]
    cases hf : fs.get? n with
    | none =>
      cases ha : aget n ps with
      | none => simp [Dict.get?]
      | some v => simp
    | some u => exact ih u (proper_get h.2.2 hf)

/-! From dictionaries to scopes. -/

theorem lookup_cons_same (a k : Str) (v : Val) (r : Dict) (p : List Str) (h : a ∉ r.keys) :
    (Dict.cons a v r).lookup p k =
      match p, v with
      | [], .str w => if k = a then some w else r.lookup [] k
      | [], .dict _ => r.lookup [] k
      | n :: q, .dict u => if n = a then u.lookup q k else r.lookup (n :: q) k
      | n :: q, .str _ => r.lookup (n :: q) k := by
  have hn := get_none h
  cases p with
  | nil =>
    by_cases e : a = k
    · subst e
      cases v <;> simp [Dict.lookup, Dict.get?, hn]
    · have e' : k ≠ a := fun h => e h.symm
      cases v <;> simp [Dict.lookup, Dict.get?, e, e']
  | cons n q =>
    by_cases e : a = n
    · subst e
      cases v <;> simp [Dict.lookup, Dict.get?, hn]
    · have e' : n ≠ a := fun h => e h.symm
      cases v <;> simp [Dict.lookup, Dict.get?, e, e']

theorem lookup_none_key {a k : Str} {r : Dict} (h : a ∉ r.keys) (p : List Str) : r.lookup (a :: p) k = none ∧ r.lookup [] a = none := by
  have hn := get_none h
  simp [Dict.lookup, hn]

theorem parse_free {k v : Str} (hk : '.' ∉ k) (hv : v.head? ≠ some '$') (ps : List (Str × Str)) (fs : Forest) :
    parseKeyval ⟨false, true⟩ 1 [] k v (.node ps fs) = .ok (.node (aset k v ps) fs) := by
  have hr : resolve 1 [] v = .ok v := by
    cases v with
    | nil => simp [resolve]
    | cons c v =>
      have hc : c ≠ '$' := by simpa using hv
      unfold resolve
      split
      · rename_i n heq; injection heq with h1; exact (hc h1).elim
      · rfl
  unfold parseKeyval
  rw [hr, splitDots_free hk]
  simp only [addAt, put]
  cases aget k ps <;> simp

theorem extract_eq : ∀ (d : Dict) (t : Tree), d.Good → ∃ t', d.extract t = .ok t' ∧ ∀ p k, t'.lookup p k = (d.lookup p k).or (t.lookup p k)
  | .nil, t, _ => ⟨t, by rw [Dict.extract], fun p k => by cases p <;> simp [Dict.lookup, Dict.get?]⟩
  | .cons a (.str v) r, t, h => by
    simp only [Dict.Good, Val.Good] at h
    obtain ⟨ps, fs⟩ := t
    obtain ⟨t', h1, h2⟩ := extract_eq r (.node (aset a v ps) fs) h.2.2.2
    refine ⟨t', by rw [Dict.extract, parse_free h.1 h.2.2.1]; exact h1, ?_⟩
    intro p k
    rw [h2, lookup_cons_same _ _ _ _ _ h.2.1]
    cases p with
    | nil =>
      simp only [Tree.lookup, aget_aset]
      by_cases e : k = a
      · subst e
        simp [(lookup_none_key (k := k) h.2.1 []).2]
      · simp [e]
    | cons n q => simp [Tree.lookup]
  | .cons a (.dict u) r, t, h => by
    simp only [Dict.Good, Val.Good] at h
    obtain ⟨u', g1, g2⟩ := extract_eq u (t.sub a) h.2.2.1
    obtain ⟨t', h1, h2⟩ := extract_eq r (t.setSub a u') h.2.2.2
    refine ⟨t', by rw [Dict.extract, g1]; exact h1, ?_⟩
    intro p k
    rw [h2, lookup_cons_same _ _ _ _ _ h.2.1]
    cases p with
    | nil => simp [lookup_setSub_nil]
    | cons n q =>
      rw [lookup_setSub_cons]
      by_cases e : n = a
      · subst e
        simp [(lookup_none_key (k := k) h.2.1 q).1, g2, lookup_sub]
      · simp [e]

/-- C155: what is handed to Python and read back is the input again. -/
theorem C155_round_trip_partial (t : Tree) (h : t.Proper) : ∃ t', t.toDict.extract .empty = .ok t' ∧ ∀ p k, t'.lookup p k = t.lookup p k := by
  obtain ⟨t', h1, h2⟩ := extract_eq t.toDict .empty (good_toDict h)
  refine ⟨t', h1, fun p k => ?_⟩
  rw [h2, C155_python_partial p k t h, lookup_empty]
  cases t.lookup p k <;> rfl

/-! Flat parameters. -/

theorem mem_flat {key v : Str} : ∀ (d : Dict) (ns : List Str), d.Good →
    ((key, v) ∈ d.flat ns ↔ ∃ p k, key = join (ns ++ (p ++ [k])) ∧ d.lookup p k = some v)
  | .nil, ns, _ => by
    simp only [Dict.flat, List.not_mem_nil, false_iff]
    rintro ⟨p, k, -, h⟩
    cases p <;> simp [Dict.lookup, Dict.get?] at h
  | .cons a (.str w) r, ns, hg => by
    simp only [Dict.Good, Val.Good] at hg
    rw [Dict.flat, List.mem_cons, mem_flat r ns hg.2.2.2]
    constructor
    · rintro (h | ⟨p, k, h1, h2⟩)
      · injection h with h1 h2
        refine ⟨[], a, h1, ?_⟩
        rw [lookup_cons_same _ _ _ _ _ hg.2.1]
        simp [h2]
      · refine ⟨p, k, h1, ?_⟩
        rw [lookup_cons_same _ _ _ _ _ hg.2.1]
        cases p with
        | nil =>
          have : k ≠ a := fun e => by
            rw [e, (lookup_none_key (k := k) hg.2.1 []).2] at h2; cases h2
          simp [this, h2]
        | cons n q => exact h2
    · rintro ⟨p, k, h1, h2⟩
      rw [lookup_cons_same _ _ _ _ _ hg.2.1] at h2
      cases p with
      | nil =>
        by_cases e : k = a
        · left
          simp only [e, if_true, Option.some.injEq] at h2
          rw [h1, e, h2]; rfl
        · right
          simp only [e, if_false] at h2
          exact ⟨[], k, h1, h2⟩
      | cons n q => exact .inr ⟨n :: q, k, h1, h2⟩
  | .cons a (.dict u) r, ns, hg => by
    simp only [Dict.Good, Val.Good] at hg
    rw [Dict.flat, List.mem_append, mem_flat r ns hg.2.2.2, mem_flat u (ns ++ [a]) hg.2.2.1]
    constructor
    · rintro (⟨p, k, h1, h2⟩ | ⟨p, k, h1, h2⟩)
      · refine ⟨a :: p, k, by rw [h1]; simp, ?_⟩
        rw [lookup_cons_same _ _ _ _ _ hg.2.1]
        simp [h2]
      · refine ⟨p, k, h1, ?_⟩
        rw [lookup_cons_same _ _ _ _ _ hg.2.1]
        cases p with
        | nil => exact h2
        | cons n q =>
          have : n ≠ a := fun e => by
            rw [e, (lookup_none_key (k := k) hg.2.1 q).1] at h2; cases h2
          simp [this, h2]
    · rintro ⟨p, k, h1, h2⟩
      rw [lookup_cons_same _ _ _ _ _ hg.2.1] at h2
      cases p with
      | nil => exact .inr ⟨[], k, h1, h2⟩
      | cons n q =>
        by_cases e : n = a
        · left
          simp only [e, if_true] at h2
          exact ⟨q, k, by rw [h1, e]; simp, h2⟩
        · right
          simp only [e, if_false] at h2
          exact ⟨n :: q, k, h1, h2⟩

theorem setAll_some {key v : Str} (l : List (Str × Str)) : ∀ m : List (Str × Str), (∀ w, (key, w) ∈ l → w = v) →
    ((key, v) ∈ l ∨ aget key m = some v) → aget key (setAll m l) = some v := by
  induction l with
  | nil =>
    intro m _ h
    rcases h with h | h
    · cases h
    · exact h
  | cons e l ih =>
    intro m hu h
    obtain ⟨a, b⟩ := e
    refine ih (aset a b m) (fun w hw => hu w (List.mem_cons_of_mem _ hw)) ?_
    rw [aget_aset]
    by_cases ha : key = a
    · right
      rw [if_pos ha, hu b (by rw [ha]; exact List.mem_cons_self ..)]
    · rw [if_neg ha]
      rcases h with h | h
      · rcases List.mem_cons.mp h with e | e
        · injection e with e1; exact (ha e1).elim
        · exact .inl e
      · exact .inr h

theorem setAll_none {key : Str} (l : List (Str × Str)) : ∀ m : List (Str × Str), (∀ w, (key, w) ∉ l) → aget key (setAll m l) = aget key m := by
  induction l with
  | nil => intro m _; rfl
  | cons e l ih =>
    intro m h
    obtain ⟨a, b⟩ := e
    have := ih (aset a b m) (fun w hw => h w (List.mem_cons_of_mem _ hw))
    show aget key (setAll (aset a b m) l) = _
    rw [this, aget_aset, if_neg]
    intro ha
    exact h b (by rw [ha]; exact List.mem_cons_self ..)

/-- The values a list of settings has for a key of good dictionaries. -/
theorem setAll_flat (d : Dict) (hg : d.Good) (m : List (Str × Str)) (p : List Str) (k : Str) (hf : ∀ x ∈ p ++ [k], '.' ∉ x) :
    aget (join (p ++ [k])) (setAll m (d.flat [])) = (d.lookup p k).or (aget (join (p ++ [k])) m) := by
  have key : ∀ w, (join (p ++ [k]), w) ∈ d.flat [] ↔ d.lookup p k = some w := by
    intro w
    rw [mem_flat d [] hg]
    constructor
    · rintro ⟨q, j, h1, h2⟩
      have hq := good_lookup q hg h2
      have := congrArg splitDots h1
      rw [List.nil_append, splitDots_join p k hf, splitDots_join q j hq] at this
      injection this with e1 e2
      rw [e1, e2]; exact h2
    · intro h
      exact ⟨p, k, rfl, h⟩
  cases hl : d.lookup p k with
  | none =>
    rw [setAll_none _ _ (fun w hw => by rw [key, hl] at hw; cases hw)]
    rfl
  | some v =>
    rw [setAll_some (v := v) _ _ (fun w hw => by rw [key, hl] at hw; injection hw with e; exact e.symm) (.inl ((key v).mpr hl))]
    rfl

theorem coreParams_get (d : Dict) (hg : d.Good) (p : List Str) (k : Str) (hf : ∀ x ∈ p ++ [k], '.' ∉ x) :
    aget (join (p ++ [k])) (coreParams d) = d.lookup p k := by
  unfold coreParams
  rw [setAll_flat d hg [] p k hf]
  cases d.lookup p k <;> rfl

/-- C155: a switch component finds under the dotted name of every value exactly that value. -/
theorem C155_flat_partial (t : Tree) (h : t.Proper) (p : List Str) (k : Str) (hf : ∀ x ∈ p ++ [k], '.' ∉ x) :
    aget (join (p ++ [k])) (coreParams t.toDict) = t.lookup p k := by
  rw [coreParams_get _ (good_toDict h) p k hf, C155_python_partial p k t h]

theorem keys_setAll (l : List (Str × Str)) : ∀ (m : List (Str × Str)) (e : Str × Str), e ∈ setAll m l → e ∈ m ∨ e ∈ l := by
  induction l with
  | nil => intro m e h; exact .inl h
  | cons x l ih =>
    intro m e h
    rcases ih (aset x.1 x.2 m) e h with h1 | h1
    · have : ∀ m : List (Str × Str), e ∈ aset x.1 x.2 m → e ∈ m ∨ e = x := by
        intro m
        induction m with
        | nil => intro h; simp only [aset, List.mem_singleton] at h; exact .inr h
        | cons y m ihm =>
          intro h
          simp only [aset] at h
          split at h
          · rename_i hy
            rcases List.mem_cons.mp h with h | h
            · right; rw [h, hy]
            · exact .inl (List.mem_cons_of_mem _ h)
          · rcases List.mem_cons.mp h with h | h
            · exact .inl (by rw [h]; exact List.mem_cons_self ..)
            · rcases ihm h with h | h
              · exact .inl (List.mem_cons_of_mem _ h)
              · exact .inr h
      rcases this m h1 with h2 | h2
      · exact .inl h2
      · exact .inr (by rw [h2]; exact List.mem_cons_self ..)
    · exact .inr (List.mem_cons_of_mem _ h1)

theorem nodup_setAll (l : List (Str × Str)) : ∀ m : List (Str × Str), (m.map (·.1)).Nodup → ((setAll m l).map (·.1)).Nodup := by
  induction l with
  | nil => intro m h; exact h
  | cons x l ih =>
    intro m h
    refine ih _ ?_
    induction m with
    | nil => simp [aset]
    | cons y m ihm =>
      simp only [List.map_cons, List.nodup_cons] at h
      simp only [aset]
      split
      · simpa using h
      · rename_i hy
        simp only [List.map_cons, List.nodup_cons]
        refine ⟨fun hc => ?_, ihm h.2⟩
        rcases (keys_aset x.1 x.2 y.1 m).mp hc with e | e
        · exact hy e
        · exact h.1 e

theorem aget_of_mem {k v : Str} {m : List (Str × Str)} (hn : (m.map (·.1)).Nodup) (h : (k, v) ∈ m) : aget k m = some v := by
  induction m with
  | nil => cases h
  | cons y m ih =>
    simp only [List.map_cons, List.nodup_cons] at hn
    rcases List.mem_cons.mp h with e | e
    · subst e; simp [aget]
    · have : y.1 ≠ k := fun he => hn.1 (by rw [he]; exact List.mem_map_of_mem (f := (·.1)) e)
      obtain ⟨a, b⟩ := y
      simp only [aget]
      rw [if_neg this, ih hn.2 e]

theorem setAll_self (m n : List (Str × Str)) (hn : (n.map (·.1)).Nodup) (key : Str) : aget key (setAll m n) = (aget key n).or (aget key m) := by
  cases h : aget key n with
  | none =>
    rw [setAll_none _ _ (fun w hw => by rw [aget_of_mem hn hw] at h; cases h)]
    rfl
  | some v =>
    rw [setAll_some (v := v) _ _ (fun w hw => by rw [aget_of_mem hn hw] at h; injection h) (.inl (aget_mem h))]
    rfl

theorem join_ne_id {p : List Str} {k : Str} (hf : ∀ x ∈ p ++ [k], '.' ∉ x) (h : ¬ (p = [] ∧ k = idW)) : join (p ++ [k]) ≠ idW := by
  intro e
  have h1 := splitDots_join p k hf
  rw [e] at h1
  have h2 : splitDots idW = ([], idW) := by decide
  rw [h2] at h1
  injection h1 with e1 e2
  exact h ⟨e1.symm, e2.symm⟩

/-- A node component finds under a dotted name the value of the topology, if there is one, else that of the
node. -/
theorem nodeParams_get (nd top : Dict) (id : Str) (h1 : nd.Good) (h2 : top.Good) (p : List Str) (k : Str) (hf : ∀ x ∈ p ++ [k], '.' ∉ x)
    (hi : ¬ (p = [] ∧ k = idW)) : aget (join (p ++ [k])) (nodeParams nd top id) = (top.lookup p k).or (nd.lookup p k) := by
  have hn : ∀ d : Dict, ((coreParams d).map (·.1)).Nodup := fun d => nodup_setAll _ [] (by simp)
  unfold nodeParams
  rw [aget_aset, if_neg (join_ne_id hf hi), setAll_self _ _ (hn top), setAll_self _ _ (hn nd), coreParams_get _ h1 p k hf, coreParams_get _ h2 p k hf]
  show _ = _
  cases top.lookup p k <;> cases nd.lookup p k <;> rfl

/-! The distribution of parameters. -/

theorem moveApp_get {s s' : Dict × Dict} {a : Str} (h : moveApp s a = some s') (x : Str) :
    s'.1.get? x = (if x = a then (s.2.get? a).or (s.1.get? a) else s.1.get? x) ∧ s'.2.get? x = (if x = a then none else s.2.get? x) := by
  unfold moveApp at h
  cases hg : s.2.get? a with
  | none =>
    rw [hg] at h; cases h
    by_cases e : x = a
    · subst e; simp [hg]
    · simp [e]
  | some v =>
    rw [hg] at h
    cases v with
    | str w => cases h
    | dict u =>
      simp only at h
      cases hn : u.get? nameW with
      | none => rw [hn] at h; cases h
      | some w =>
        rw [hn] at h; cases h
        by_cases e : x = a
        · subst e; simp [get_put, get_del]
        · simp [e, get_put, get_del]

theorem moveApps_get (as : List Str) : ∀ {s s' : Dict × Dict}, moveApps as s = some s' → ∀ x,
    s'.1.get? x = (if x ∈ as then (s.2.get? x).or (s.1.get? x) else s.1.get? x) ∧ s'.2.get? x = (if x ∈ as then none else s.2.get? x) := by
  induction as with
  | nil => intro s s' h x; cases h; simp
  | cons a as ih =>
    intro s s' h x
    unfold moveApps at h
    cases hm : moveApp s a with
    | none => rw [hm] at h; cases h
    | some t =>
      rw [hm] at h
      obtain ⟨h1, h2⟩ := ih h x
      obtain ⟨g1, g2⟩ := moveApp_get hm x
      rw [h1, h2, g1, g2]
      by_cases e : x = a
      · subst e
        by_cases m : x ∈ as <;> simp [m]
      · by_cases m : x ∈ as <;> simp [m, e]

theorem moveApps_good (as : List Str) (ha : ∀ a ∈ as, '.' ∉ a) : ∀ {s s' : Dict × Dict}, moveApps as s = some s' → s.1.Good → s.2.Good → s'.1.Good ∧ s'.2.Good := by
  induction as with
  | nil => intro s s' h h1 h2; cases h; exact ⟨h1, h2⟩
  | cons a as ih =>
    intro s s' h h1 h2
    unfold moveApps at h
    cases hm : moveApp s a with
    | none => rw [hm] at h; cases h
    | some t =>
      rw [hm] at h
      refine ih (fun x hx => ha x (List.mem_cons_of_mem _ hx)) h ?_ ?_
      · unfold moveApp at hm
        cases hg : s.2.get? a with
        | none => rw [hg] at hm; cases hm; exact h1
        | some v =>
          rw [hg] at hm
          cases v with
          | str w => cases hm
          | dict u =>
            simp only at hm
            cases hn : u.get? nameW with
            | none => rw [hn] at hm; cases hm
            | some w => rw [hn] at hm; cases hm; exact good_put (ha a (List.mem_cons_self ..)) (good_get h2 hg).2 h1
      · unfold moveApp at hm
        cases hg : s.2.get? a with
        | none => rw [hg] at hm; cases hm; exact h2
        | some v =>
          rw [hg] at hm
          cases v with
          | str w => cases hm
          | dict u =>
            simp only at hm
            cases hn : u.get? nameW with
            | none => rw [hn] at hm; cases hm
            | some w => rw [hn] at hm; cases hm; exact good_del h2

theorem addGlobals_get (x : Str) : ∀ (g own : Dict), g.Good → (addGlobals g own).get? x =
    match own.get? x with | some v => some v | none => match g.get? x with | some (.str v) => some (.str v) | _ => none
  | .nil, own, _ => by
    rw [addGlobals]
    cases own.get? x <;> simp [Dict.get?]
  | .cons k (.str v) r, own, hg => by
    simp only [Dict.Good] at hg
    rw [addGlobals, addGlobals_get x r _ hg.2.2.2]
    by_cases e : k = x
    · subst e
      have hn := get_none hg.2.1
      cases ho : own.get? k with
      | none => simp [get_put, Dict.get?]
      | some w => simp [ho]
    · have e' : x ≠ k := fun h => e h.symm
      cases own.get? k <;> simp [get_put, e', Dict.get?, e]
  | .cons k (.dict u) r, own, hg => by
    simp only [Dict.Good] at hg
    rw [addGlobals, addGlobals_get x r _ hg.2.2.2]
    by_cases e : k = x
    · subst e
      have hn := get_none hg.2.1
      simp [Dict.get?, hn]
    · simp [Dict.get?, e]

theorem addGlobals_good : ∀ (g : Dict) {own : Dict}, g.Good → own.Good → (addGlobals g own).Good
  | .nil, own, _, h => by rw [addGlobals]; exact h
  | .cons k (.str v) r, own, hg, h => by
    simp only [Dict.Good] at hg
    rw [addGlobals]
    refine addGlobals_good r hg.2.2.2 ?_
    cases own.get? k with
    | none => exact good_put hg.1 hg.2.2.1 h
    | some w => exact h
  | .cons k (.dict u) r, own, hg, h => by
    simp only [Dict.Good] at hg
    rw [addGlobals]
    exact addGlobals_good r hg.2.2.2 h

/-- What the distribution does, entry by entry, when it ends without an exception and no debug flags are given. -/
theorem setup_get {d o : Dict} (hd : d.Good) (h : setup d none = some o) : ∃ nd sw top nd' sw' : Dict,
    d.get? nodeW = some (.dict nd) ∧ d.get? switchW = some (.dict sw) ∧ d.get? topologyW = some (.dict top) ∧
    o.get? nodeW = some (.dict nd') ∧ o.get? switchW = some (.dict sw') ∧ o.get? topologyW = some (.dict top) ∧ o.Good ∧ nd'.Good ∧ sw'.Good ∧ top.Good ∧
    (∀ x, x ≠ interconnectW → x ≠ topologyW → x ∉ apps → nd'.get? x =
      match nd.get? x with | some v => some v | none => match d.get? x with | some (.str v) => some (.str v) | _ => none) ∧
    (∀ x ∈ apps, ∀ u, d.get? x = some (.dict u) → nd'.get? x = some (.dict u)) ∧ nd'.get? topologyW = some (.dict top) ∧
    (∀ x, x ≠ topologyW → x ∉ apps → sw'.get? x =
      match sw.get? x with | some v => some v | none => match d.get? x with | some (.str v) => some (.str v) | _ => none) ∧
    sw'.get? topologyW = some (.dict top) := by
  unfold setup at h
  split at h
  · rename_i nd sw top e1 e2 e3
    have gnd : nd.Good := by simpa [Val.Good] using (good_get hd e1).2
    have gsw : sw.Good := by simpa [Val.Good] using (good_get hd e2).2
    have gtop : top.Good := by simpa [Val.Good] using (good_get hd e3).2
    cases hm : moveApps apps (nd, d) with
    | none => rw [hm] at h; cases h
    | some s =>
      obtain ⟨n1, d1⟩ := s
      rw [hm] at h
      have hgood := moveApps_good apps (by decide) hm gnd hd
      have hget := moveApps_get apps hm
      simp only [Option.some.injEq] at h
      subst h
      have gic : (Val.dict (.cons topologyW (.dict top) .nil)).Good := by
        simp only [Val.Good, Dict.Good, Dict.keys]
        exact ⟨by decide, by simp, gtop, trivial⟩
      have g2 : ((n1.put interconnectW (.dict (.cons topologyW (.dict top) .nil))).put topologyW (.dict top)).Good :=
        good_put (by decide) (by simpa [Val.Good] using gtop) (good_put (by decide) gic hgood.1)
      have g3 : (sw.put topologyW (.dict top)).Good := good_put (by decide) (by simpa [Val.Good] using gtop) gsw
      refine ⟨nd, sw, top, _, _, by first | rfl | assumption, by first | rfl | assumption, by first | rfl | assumption, ?_, by rw [get_put, if_pos rfl], ?_,
        good_put (by decide) (by rw [Val.Good]; exact addGlobals_good _ hgood.2 g3) (good_put (by decide) (by rw [Val.Good]; exact addGlobals_good _ hgood.2 g2) hgood.2), addGlobals_good _ hgood.2 g2, addGlobals_good _ hgood.2 g3, gtop,
        ?_, ?_, ?_, ?_, ?_⟩
      · rw [get_put, if_neg (by decide), get_put, if_pos rfl]
      · rw [get_put, if_neg (by decide), get_put, if_neg (by decide), (hget topologyW).2, if_neg (by decide)]
        exact e3
      · intro x h1 h2 h3
        rw [addGlobals_get x _ _ hgood.2, get_put, if_neg h2, get_put, if_neg h1, (hget x).1, (hget x).2, if_neg h3, if_neg h3]
      · intro x hx u hu
        have ha : ∀ a ∈ apps, a ≠ interconnectW ∧ a ≠ topologyW := by decide
        rw [addGlobals_get x _ _ hgood.2, get_put, if_neg (ha x hx).2, get_put, if_neg (ha x hx).1, (hget x).1, if_pos hx]
        simp only [hu, Option.some_or]
      · rw [addGlobals_get _ _ _ hgood.2, get_put, if_pos rfl]
      · intro x h2 h3
        rw [addGlobals_get x _ _ hgood.2, get_put, if_neg h2, (hget x).2, if_neg h3]
      · rw [addGlobals_get _ _ _ hgood.2, get_put, if_pos rfl]
  · cases h

/-- The names app0 to app9. -/
def IsApp (x : Str) : Prop := ∃ c : Char, c.isDigit = true ∧ x = ['a', 'p', 'p', c]

theorem apps_iff (x : Str) : x ∈ apps ↔ IsApp x := by
  unfold apps IsApp
  rw [List.mem_map]
  constructor
  · rintro ⟨i, hi, rfl⟩
    refine ⟨_, ?_, rfl⟩
    have h : ∀ i ∈ List.range 10, (Char.ofNat (48 + i)).isDigit = true := by decide
    exact h i hi
  · rintro ⟨c, hc, rfl⟩
    simp only [Char.isDigit, Bool.and_eq_true, decide_eq_true_eq] at hc
    have h1 : 48 ≤ c.toNat := by have := UInt32.le_iff_toNat_le.mp hc.1; simpa using this
    have h2 : c.toNat ≤ 57 := by have := UInt32.le_iff_toNat_le.mp hc.2; simpa using this
    refine ⟨c.toNat - 48, List.mem_range.mpr (by omega), ?_⟩
    rw [show 48 + (c.toNat - 48) = c.toNat by omega, Char.ofNat_toNat]

/-- A name of the input that the distribution does not treat specially. -/
def Plain (x : Str) : Prop := x ≠ interconnectW ∧ x ≠ topologyW ∧ ¬ IsApp x

theorem Plain.not_apps {x : Str} (h : Plain x) : x ∉ apps := fun hx => h.2.2 ((apps_iff x).mp hx)

/-- C155: every value that the input gives inside a namespace of the nodes reaches every node component under its
dotted name, unless the topology has a value of that name. -/
theorem C155_node_values_partial (t : Tree) (ht : t.Proper) (o : Dict) (hs : setup t.toDict none = some o) (n : Str) (p : List Str) (k v : Str)
    (hn : Plain n) (hf : ∀ x ∈ n :: p ++ [k], '.' ∉ x) (hv : t.lookup (nodeW :: n :: p) k = some v) (hc : t.lookup (topologyW :: n :: p) k = none) (id : Str) :
    ∃ nd top, o.get? nodeW = some (.dict nd) ∧ o.get? topologyW = some (.dict top) ∧ aget (join (n :: p ++ [k])) (nodeParams nd top id) = some v := by
  obtain ⟨nd, sw, top, nd', sw', e1, e2, e3, f1, f2, f3, go, g1, g2, g3, a1, -, -, -, -⟩ := setup_get (good_toDict ht) hs
  refine ⟨nd', top, f1, f3, ?_⟩
  have := nodeParams_get nd' top id g1 g3 (n :: p) k hf (by simp)
  rw [this]
  rw [← C155_python_partial _ _ t ht] at hv hc
  simp only [Dict.lookup, e1, e3] at hv hc
  have h2 := a1 n hn.1 hn.2.1 hn.not_apps
  simp only [Dict.lookup]
  rw [h2]
  cases hg : nd.get? n with
  | none => rw [hg] at hv; cases hv
  | some w =>
    cases w with
    | str _ => rw [hg] at hv; cases hv
    | dict u =>
      rw [hg] at hv
      simp only at hv ⊢
      rw [hv, hc]; rfl

theorem node_dict {t : Tree} (ht : t.Proper) {n : Str} {nd : Dict} (h : t.toDict.get? n = some (.dict nd)) : nd = (t.sub n).toDict := by
  obtain ⟨ps, fs⟩ := t
  simp only [Tree.Proper] at ht
  rw [Tree.toDict, addTo_get _ _ _ ht.2.2, addPars_get _ _ _ ht.1] at h
  simp only [Tree.sub]
  cases hf : fs.get? n with
  | some u =>
    rw [hf] at h
    simp only [Option.some.injEq, Val.dict.injEq] at h
    rw [Option.getD_some]; exact h.symm
  | none =>
    rw [hf] at h
    cases ha : aget n ps with
    | none => rw [ha] at h; cases h
    | some v => rw [ha] at h; cases h

theorem proper_sub {t : Tree} (ht : t.Proper) (n : Str) : (t.sub n).Proper := by
  obtain ⟨ps, fs⟩ := t
  simp only [Tree.Proper] at ht
  simp only [Tree.sub]
  cases hf : fs.get? n with
  | some u => exact proper_get ht.2.2 hf
  | none => simp [Tree.empty, Tree.Proper, Forest.Proper]

/-- The namespace `n` of the input has neither a value nor a namespace called `k`. -/
def Free (t : Tree) (n k : Str) : Prop := ∀ ps fs, t.sub n = .node ps fs → k ∉ ps.map (·.1) ∧ k ∉ fs.names

theorem free_get {t : Tree} (ht : t.Proper) {n k : Str} (hf : Free t n k) : (t.sub n).toDict.get? k = none := by
  have hp := proper_sub ht n
  unfold Free at hf
  generalize t.sub n = u at hp hf
  obtain ⟨ps, fs⟩ := u
  simp only [Tree.Proper] at hp
  obtain ⟨h1, h2⟩ := hf ps fs rfl
  rw [Tree.toDict, addTo_get _ _ _ hp.2.2, addPars_get _ _ _ hp.1, get_new h2, aget_new h1]
  rfl

theorem global_get {t : Tree} (ht : t.Proper) {k v : Str} (hv : t.lookup [] k = some v) : t.toDict.get? k = some (.str v) := by
  have := C155_python_partial [] k t ht
  rw [hv, Dict.lookup] at this
  split at this
  · rename_i w hw; injection this with e; rw [hw, e]
  · cases this

theorem own_get {t : Tree} (ht : t.Proper) {n k v : Str} {nd : Dict} (h : t.toDict.get? n = some (.dict nd)) (hv : t.lookup [n] k = some v) :
    nd.get? k = some (.str v) := by
  have := C155_python_partial [n] k t ht
  rw [hv, Dict.lookup, h] at this
  simp only [Dict.lookup] at this
  split at this
  · rename_i w hw; injection this with e; rw [hw, e]
  · cases this

/-- C155: a node gets the value that the input gives the nodes, or, when it gives none, the global value of that name,
unless the topology has a value of that name. -/
theorem C155_global_values_partial (t : Tree) (ht : t.Proper) (o : Dict) (hs : setup t.toDict none = some o) (k v : Str) (hk : Plain k) (hi : k ≠ idW)
    (hf : '.' ∉ k) (hv : t.lookup [nodeW] k = some v ∨ (Free t nodeW k ∧ t.lookup [] k = some v)) (hc : t.lookup [topologyW] k = none) (id : Str) :
    ∃ nd top, o.get? nodeW = some (.dict nd) ∧ o.get? topologyW = some (.dict top) ∧ aget k (nodeParams nd top id) = some v := by
  obtain ⟨nd, sw, top, nd', sw', e1, e2, e3, f1, f2, f3, go, g1, g2, g3, a1, -, -, -, -⟩ := setup_get (good_toDict ht) hs
  refine ⟨nd', top, f1, f3, ?_⟩
  have := nodeParams_get nd' top id g1 g3 [] k (by simpa using hf) (by simpa using hi)
  rw [show join ([] ++ [k]) = k from rfl] at this
  rw [this]
  rw [← C155_python_partial _ _ t ht] at hc
  simp only [Dict.lookup, e3] at hc
  have h2 := a1 k hk.1 hk.2.1 hk.not_apps
  simp only [Dict.lookup]
  rw [h2, hc]
  rcases hv with hv | ⟨hv, hg⟩
  · rw [own_get ht e1 hv]; rfl
  · rw [node_dict ht e1, free_get ht hv, global_get ht hg]; rfl

/-- C155: a switch gets every value that the input gives the switches under its dotted name, and the global values of
which it has none. -/
theorem C155_switch_values_partial (t : Tree) (ht : t.Proper) (o : Dict) (hs : setup t.toDict none = some o) :
    ∃ sw, o.get? switchW = some (.dict sw) ∧
      (∀ n p k v, Plain n → (∀ x ∈ n :: p ++ [k], '.' ∉ x) → t.lookup (switchW :: n :: p) k = some v → aget (join (n :: p ++ [k])) (coreParams sw) = some v) ∧
      (∀ k v, Plain k → '.' ∉ k → (t.lookup [switchW] k = some v ∨ (Free t switchW k ∧ t.lookup [] k = some v)) → aget k (coreParams sw) = some v) ∧
      (∀ p k v, (∀ x ∈ p ++ [k], '.' ∉ x) → t.lookup (topologyW :: p) k = some v → aget (join (topologyW :: p ++ [k])) (coreParams sw) = some v) := by
  obtain ⟨nd, sw, top, nd', sw', e1, e2, e3, f1, f2, f3, go, g1, g2, g3, -, -, -, a1, a2⟩ := setup_get (good_toDict ht) hs
  refine ⟨sw', f2, ?_, ?_, ?_⟩
  · intro n p k v hn hf hv
    rw [coreParams_get sw' g2 (n :: p) k hf]
    rw [← C155_python_partial _ _ t ht] at hv
    simp only [Dict.lookup, e2] at hv ⊢
    rw [a1 n hn.2.1 hn.not_apps]
    cases hg : sw.get? n with
    | none => rw [hg] at hv; cases hv
    | some w =>
      cases w with
      | str _ => rw [hg] at hv; cases hv
      | dict u => rw [hg] at hv; exact hv
  · intro k v hk hf hv
    have := coreParams_get sw' g2 [] k (by simpa using hf)
    rw [show join ([] ++ [k]) = k from rfl] at this
    rw [this]
    simp only [Dict.lookup]
    rw [a1 k hk.2.1 hk.not_apps]
    rcases hv with hv | ⟨hv, hg⟩
    · rw [own_get ht e2 hv]
    · rw [node_dict ht e2, free_get ht hv, global_get ht hg]
  · intro p k v hf hv
    rw [coreParams_get sw' g2 (topologyW :: p) k (fun x hx => by
      rcases List.mem_cons.mp (by simpa using hx : x ∈ topologyW :: (p ++ [k])) with e | e
      · subst e; decide
      · exact hf x e)]
    rw [← C155_python_partial _ _ t ht] at hv
    simp only [Dict.lookup, e3] at hv
    simp only [Dict.lookup]
    rw [a2]
    exact hv

/-- C155: the applications 0 to 9 reach the nodes whole. -/
theorem C155_apps_partial (t : Tree) (ht : t.Proper) (o : Dict) (hs : setup t.toDict none = some o) (a : Str) (hap : IsApp a) (p : List Str) (k v : Str)
    (hf : ∀ x ∈ p ++ [k], '.' ∉ x) (hv : t.lookup (a :: p) k = some v) (hc : t.lookup (topologyW :: a :: p) k = none) (id : Str) :
    ∃ nd top, o.get? nodeW = some (.dict nd) ∧ o.get? topologyW = some (.dict top) ∧ aget (join (a :: p ++ [k])) (nodeParams nd top id) = some v := by
  obtain ⟨nd, sw, top, nd', sw', e1, e2, e3, f1, f2, f3, go, g1, g2, g3, -, a2, -, -, -⟩ := setup_get (good_toDict ht) hs
  refine ⟨nd', top, f1, f3, ?_⟩
  have had : ∀ a ∈ apps, '.' ∉ a := by decide
  have ha := (apps_iff a).mpr hap
  have := nodeParams_get nd' top id g1 g3 (a :: p) k (fun x hx => by
    rcases List.mem_cons.mp (by simpa using hx : x ∈ a :: (p ++ [k])) with e | e
    · subst e; exact had x ha
    · exact hf x e) (by simp)
  rw [this]
  rw [← C155_python_partial _ _ t ht] at hv hc
  simp only [Dict.lookup, e3] at hv hc
  cases hg : t.toDict.get? a with
  | none => rw [hg] at hv; cases hv
  | some w =>
    cases w with
    | str _ => rw [hg] at hv; cases hv
    | dict u =>
      rw [hg] at hv
      simp only at hv
      simp only [Dict.lookup]
      rw [a2 a ha u hg]
      simp only
      rw [hv, hc]; rfl

theorem system_get (t : Tree) (k : Str) : aget (topologyW ++ '.' :: k) (systemParams t) = t.lookup [topologyW] k := by
  unfold systemParams
  rw [← List.nil_append [topologyW]]
  have : t.lookup ([] ++ [topologyW]) k = (t.sub topologyW).lookup [] k := by rw [lookup_sub]; rfl
  rw [this]
  obtain ⟨ps, fs⟩ := t.sub topologyW
  simp only [Tree.lookup]
  induction ps with
  | nil => rfl
  | cons e ps ih =>
    obtain ⟨a, b⟩ := e
    simp only [List.map_cons, aget, List.append_cancel_left_eq, List.cons.injEq, true_and]
    rw [ih]

/-- C155: the topology that wires the machine is made from the values of the input for it. -/
theorem C155_topology_partial (t : Tree) (ht : t.Proper) (o : Dict) (hs : setup t.toDict none = some o) :
    ∃ t', o.extract .empty = .ok t' ∧ ∀ k, aget (topologyW ++ '.' :: k) (systemParams t') = t.lookup [topologyW] k := by
  obtain ⟨nd, sw, top, nd', sw', e1, e2, e3, f1, f2, f3, go, g1, g2, g3, -, -, -, -, -⟩ := setup_get (good_toDict ht) hs
  obtain ⟨t', h1, h2⟩ := extract_eq o .empty go
  refine ⟨t', h1, fun k => ?_⟩
  rw [system_get, h2, lookup_empty, ← C155_python_partial _ _ t ht]
  simp only [Dict.lookup, e3, f3]
  cases top.get? k with
  | none => rfl
  | some w => cases w <;> rfl

/-! Where the claim fails. -/

/-- A value whose key is also the name of a namespace is lost. -/
theorem C155_shadowed_refuted (ps : List (Str × Str)) (fs : Forest) (hfs : fs.Proper) (hps : (ps.map (·.1)).Nodup) (k : Str) (hk : k ∈ fs.names) :
    (Tree.node ps fs).toDict.lookup [] k = none := by
  rw [Dict.lookup, Tree.toDict, addTo_get _ _ _ hfs, addPars_get _ _ _ hps]
  cases hf : fs.get? k with
  | some u => rfl
  | none =>
    exfalso
    revert hf hk
    clear hfs hps
    induction fs using Forest.rec (motive_1 := fun _ => True) with
    | node => trivial
    | nil => intro h; cases h
    | cons n t r _ ih =>
      intro h
      simp only [Forest.names, List.mem_cons] at h
      by_cases e : n = k
      · simp [Forest.get?, e]
      · have : k ≠ n := fun h => e h.symm
        simp only [Forest.get?, e, if_false]
        exact ih (h.resolve_left this)

/-- The eleventh application, and any namespace of applications after it, never reaches the nodes. -/
theorem C155_eleventh_app_refuted (t : Tree) (ht : t.Proper) (o : Dict) (hs : setup t.toDict none = some o) (a : Str) (ha : Plain a)
    (u : Dict) (hu : t.toDict.get? a = some (.dict u)) (nd : Dict) (hnd : t.toDict.get? nodeW = some (.dict nd)) (hno : nd.get? a = none) :
    ∃ nd', o.get? nodeW = some (.dict nd') ∧ nd'.get? a = none := by
  obtain ⟨nd0, sw, top, nd', sw', e1, e2, e3, f1, f2, f3, go, g1, g2, g3, a1, -, -, -, -⟩ := setup_get (good_toDict ht) hs
  refine ⟨nd', f1, ?_⟩
  rw [e1] at hnd
  injection hnd with hnd
  injection hnd with hnd
  subst hnd
  rw [a1 a ha.1 ha.2.1 ha.not_apps, hno, hu]

/-- A value of the topology replaces the value of the same name that the input gives the nodes. -/
theorem C155_topology_over_node_refuted (t : Tree) (ht : t.Proper) (o : Dict) (hs : setup t.toDict none = some o) (k v : Str) (hf : '.' ∉ k) (hi : k ≠ idW)
    (hc : t.lookup [topologyW] k = some v) (id : Str) :
    ∃ nd top, o.get? nodeW = some (.dict nd) ∧ o.get? topologyW = some (.dict top) ∧ aget k (nodeParams nd top id) = some v := by
  obtain ⟨nd, sw, top, nd', sw', e1, e2, e3, f1, f2, f3, go, g1, g2, g3, -, -, -, -, -⟩ := setup_get (good_toDict ht) hs
  refine ⟨nd', top, f1, f3, ?_⟩
  have := nodeParams_get nd' top id g1 g3 [] k (by simpa using hf) (by simpa using hi)
  rw [show join ([] ++ [k]) = k from rfl] at this
  rw [this]
  rw [← C155_python_partial _ _ t ht] at hc
  simp only [Dict.lookup, e3] at hc
  simp only [Dict.lookup]
  rw [hc]; rfl

/-- Values in namespaces of the topology never reach the topology that wires the machine. -/
theorem C155_nested_topology_refuted (t : Tree) (ps : List (Str × Str)) (fs : Forest) (ht : t.sub topologyW = .node ps fs) (hp : ∀ e ∈ ps, '.' ∉ e.1)
    (n s : Str) : aget (topologyW ++ '.' :: (n ++ '.' :: s)) (systemParams t) = none := by
  rw [system_get]
  have : t.lookup [topologyW] (n ++ '.' :: s) = (t.sub topologyW).lookup [] (n ++ '.' :: s) := by rw [lookup_sub]
  rw [this, ht, Tree.lookup]
  cases h : aget (n ++ '.' :: s) ps with
  | none => rfl
  | some v => exact (hp _ (aget_mem h) (by simp)).elim

/-! Concrete cases. -/

/-- A small input: a global value, a node with an interface, a switch, a topology, and applications 0 and 10. -/
def demo : Tree :=
  .node [(['s', 'e', 'e', 'd'], ['7'])]
    (.cons nodeW (.node [(nameW, ['s', 'i', 'm'])] (.cons ['n', 'i', 'c'] (.node [(nameW, ['p', 'i'])] .nil) .nil))
    (.cons switchW (.node [(nameW, ['l', 'o', 'g', 'p'])] .nil)
    (.cons topologyW (.node [(nameW, ['r', 'i', 'n', 'g'])] .nil)
    (.cons ['a', 'p', 'p', '0'] (.node [(nameW, ['x'])] .nil)
    (.cons ['a', 'p', 'p', '1', '0'] (.node [(nameW, ['y'])] .nil) .nil)))))

/-- Flat parameters of the nodes of the small input. -/
def demoNode : Option (List (Str × Str)) :=
  match setup demo.toDict none with
  | some o => match o.get? nodeW, o.get? topologyW with
    | some (.dict nd), some (.dict top) => some (nodeParams nd top ['4'])
    | _, _ => none
  | none => none

example : IsApp ['a', 'p', 'p', '0'] ∧ Plain ['a', 'p', 'p', '1', '0'] ∧ Plain ['n', 'i', 'c'] := by
  refine ⟨⟨'0', by decide, rfl⟩, ⟨by decide, by decide, ?_⟩, ⟨by decide, by decide, ?_⟩⟩ <;> rw [← apps_iff] <;> decide

example : demo.Proper := by
  simp only [demo, Tree.Proper, Forest.Proper, Forest.names, nodeW, switchW, topologyW, nameW]
  simp

example : (demoNode.bind (aget ['n', 'i', 'c', '.', 'n', 'a', 'm', 'e'])) = some ['p', 'i'] ∧ (demoNode.bind (aget ['s', 'e', 'e', 'd'])) = some ['7'] ∧
    (demoNode.bind (aget ['a', 'p', 'p', '0', '.', 'n', 'a', 'm', 'e'])) = some ['x'] ∧
    (demoNode.bind (aget ['a', 'p', 'p', '1', '0', '.', 'n', 'a', 'm', 'e'])) = none ∧
    (demoNode.bind (aget nameW)) = some ['r', 'i', 'n', 'g'] ∧ (demoNode.bind (aget idW)) = some ['4'] := by decide +kernel

end Params.Core
