import Verif.Topo.Dragonfly
import Verif.Topo.FatTreeProps
/-
Lemmas for the dragonfly: what a wiring has to satisfy, and that the three wirings do.
-/
set_option autoImplicit false
namespace SST.Topo.Dragonfly
open SST.Topo
open SST.Topo.FatTree (mul_add_div' mul_add_mod' mul_add_lt)

/-- The links of a wiring agree from both ends, and there are at most `h` at a switch. -/
structure Sym (P : Par) (W : Wiring) : Prop where
  len : ∀ A G, A < P.a → G < P.g → (W.connected A G).length ≤ P.h
  lt : ∀ A G d, A < P.a → G < P.g → d ∈ W.connected A G → d < P.a * P.g
  back : ∀ A G i d, A < P.a → G < P.g → (W.connected A G)[i]? = some d → d / P.a ≠ G →
    (W.connected (d % P.a) (d / P.a))[W.inport A G i (d % P.a) (d / P.a)]? = some (A + G * P.a) ∧
    W.inport (d % P.a) (d / P.a) (W.inport A G i (d % P.a) (d / P.a)) A G = i

/-- The switches listed as leading to a group do. -/
structure Far (P : Par) (W : Wiring) : Prop where
  far : ∀ G G' prev x, G < P.g → G' < P.g → G ≠ G' → x ∈ W.toGroup G G' prev →
    x.1 < P.a ∧ ∃ d ∈ W.connected x.1 G, d / P.a = G'

theorem uid_div {P : Par} {A G : Nat} (hA : A < P.a) : (A + G * P.a) / P.a = G := by
  rw [Nat.add_comm]; exact mul_add_div' hA

theorem uid_mod {P : Par} {A G : Nat} (hA : A < P.a) : (A + G * P.a) % P.a = A := by
  rw [Nat.add_comm]; exact mul_add_mod' hA

theorem uid_eq (P : Par) (s : Nat) : s % P.a + s / P.a * P.a = s := by
  have := Nat.div_add_mod s P.a
  rw [Nat.mul_comm] at this
  omega

theorem uid_lt {P : Par} {A G : Nat} (hA : A < P.a) (hG : G < P.g) : A + G * P.a < P.a * P.g := by
  have := mul_add_lt hG hA
  rw [Nat.mul_comm P.a]
  omega

/-! ### Modular arithmetic -/

theorem emod_eq_of {x y : Int} {g : Nat} {q : Int} (h0 : 0 ≤ y) (h1 : y < g) (h : x = y + q * g) : x % g = y := by
  rw [h, Int.add_mul_emod_self_right]
  exact Int.emod_eq_of_lt h0 h1

theorem tmod_spec (x : Int) (g : Nat) : ∃ q : Int, x = x.tmod g + q * g := by
  refine ⟨x.tdiv g, ?_⟩
  have := Int.tmod_add_mul_tdiv x g
  rw [Int.mul_comm] at this
  omega

theorem cmod_eq (x : Int) {g : Nat} (hg : 0 < g) : (cmod x g : Int) = x % g := by
  obtain ⟨q, hq⟩ := tmod_spec x g
  have hlt : x.tmod g < g := Int.tmod_lt_of_pos x (by omega)
  have hgt : -(g : Int) < x.tmod g := Int.lt_tmod_of_pos x (by omega)
  unfold cmod
  simp only
  split
  · rename_i hneg
    rw [Int.toNat_of_nonneg (by omega)]
    refine (emod_eq_of (by omega) (by omega) (q := q - 1) ?_).symm
    rw [Int.sub_mul]; omega
  · rename_i hneg
    rw [Int.toNat_of_nonneg (by omega)]
    exact (emod_eq_of (by omega) hlt hq).symm

theorem modulo_eq (x : Int) {g : Nat} (hg : 0 < g) : (modulo x g : Int) = x % g := by
  obtain ⟨q, hq⟩ := tmod_spec x g
  have hlt : x.tmod g < g := Int.tmod_lt_of_pos x (by omega)
  have hgt : -(g : Int) < x.tmod g := Int.lt_tmod_of_pos x (by omega)
  unfold modulo
  have h0 : 0 ≤ x.tmod g + g := by omega
  rw [Int.toNat_of_nonneg (Int.tmod_nonneg _ h0), Int.tmod_eq_emod_of_nonneg h0, Int.add_emod_right]
  conv => rhs; rw [hq, Int.add_mul_emod_self_right]

theorem cmod_lt (x : Int) {g : Nat} (hg : 0 < g) : cmod x g < g := by
  have := cmod_eq x hg
  have := Int.emod_lt_of_pos x (show (0 : Int) < g by omega)
  omega

theorem modulo_lt (x : Int) {g : Nat} (hg : 0 < g) : modulo x g < g := by
  have := modulo_eq x hg
  have := Int.emod_lt_of_pos x (show (0 : Int) < g by omega)
  omega

/-- Going `d` one way and `d` back. -/
theorem emod_back {x d : Int} {G g : Nat} (hG : G < g) (h : x = ((G : Int) + d) % g) : (x - d) % g = G := by
  have := Int.emod_add_mul_ediv ((G : Int) + d) g
  refine emod_eq_of (by omega) (by omega) (q := -(((G : Int) + d) / g)) ?_
  rw [Int.neg_mul, Int.mul_comm]
  omega

/-! ### Lists made of blocks of the same length -/

theorem flatMap_getElem? {α β : Type} (f : α → List β) {n : Nat} (hn : 0 < n) (l : List α) (h : ∀ x ∈ l, (f x).length = n) (i : Nat) :
    (l.flatMap f)[i]? = (l[i / n]?).bind fun x => (f x)[i % n]? := by
  induction l generalizing i with
  | nil => simp
  | cons x l ih =>
    have hx := h x (by simp)
    rw [List.flatMap_cons, List.getElem?_append]
    split
    · rename_i hi
      rw [hx] at hi
      rw [Nat.div_eq_of_lt hi, Nat.mod_eq_of_lt hi]
      simp
    · rename_i hi
      rw [hx] at hi ⊢
      rw [ih (fun y hy => h y (by simp [hy]))]
      obtain ⟨j, rfl⟩ : ∃ j, i = j + n := ⟨i - n, by omega⟩
      rw [Nat.add_sub_cancel, Nat.add_mod_right, Nat.add_div_right _ hn, List.getElem?_cons_succ]

theorem length_flatMap_const {α β : Type} (f : α → List β) {n : Nat} (l : List α) (h : ∀ x ∈ l, (f x).length = n) :
    (l.flatMap f).length = l.length * n := by
  induction l with
  | nil => simp
  | cons x l ih =>
    rw [List.flatMap_cons, List.length_append, h x (by simp), ih (fun y hy => h y (by simp [hy])), List.length_cons, Nat.succ_mul]
    omega

/-! ### Circulant -/

/-- The offsets of the links of switch `A` of a group that lead to another group. -/
def offs (P : Par) (A : Nat) : List Nat :=
  ((List.range (P.h / 2)).map fun i => A * (P.h / 2) + (i + 1)).filter fun o => o % P.g ≠ 0

theorem same_group {g G o : Nat} (hG : G < g) : (((G : Int) + o) % g = G ↔ o % g = 0) ∧ (((G : Int) - o) % g = G ↔ o % g = 0) := by
  have hg : (0 : Int) < g := by omega
  constructor
  · constructor
    · intro h
      have h1 := Int.emod_add_mul_ediv ((G : Int) + o) g
      have : (g : Int) ∣ o := ⟨((G : Int) + o) / g, by omega⟩
      have := Int.natCast_dvd_natCast.1 this
      exact Nat.mod_eq_zero_of_dvd this
    · intro h
      obtain ⟨k, hk⟩ := Nat.dvd_of_mod_eq_zero h
      refine emod_eq_of (by omega) (by omega) (q := k) ?_
      rw [hk, Int.natCast_mul, Int.mul_comm]
  · constructor
    · intro h
      have h1 := Int.emod_add_mul_ediv ((G : Int) - o) g
      have : (g : Int) ∣ o := ⟨-(((G : Int) - o) / g), by rw [Int.mul_neg]; omega⟩
      have := Int.natCast_dvd_natCast.1 this
      exact Nat.mod_eq_zero_of_dvd this
    · intro h
      obtain ⟨k, hk⟩ := Nat.dvd_of_mod_eq_zero h
      refine emod_eq_of (by omega) (by omega) (q := -k) ?_
      rw [hk, Int.natCast_mul, Int.neg_mul, Int.mul_comm]
      omega

theorem circ_eq {P : Par} {A G : Nat} (hG : G < P.g) :
    circConnected P A G = (offs P A).flatMap fun (o : Nat) => [cmod ((G : Int) + o) P.g * P.a + A, cmod ((G : Int) - o) P.g * P.a + A] := by
  unfold circConnected offs
  simp only
  generalize List.range (P.h / 2) = l
  induction l with
  | nil => rfl
  | cons i l ih =>
    rw [List.flatMap_cons, ih, List.map_cons, List.filter_cons]
    have e1 : (G : Int) + (A : Int) * ((P.h / 2 : Nat) : Int) + ((i + 1 : Nat) : Int) = (G : Int) + ((A * (P.h / 2) + (i + 1) : Nat) : Int) := by
      rw [Int.natCast_add (A * (P.h / 2)), Int.natCast_mul]; omega
    have e2 : (G : Int) - (A : Int) * ((P.h / 2 : Nat) : Int) - ((i + 1 : Nat) : Int) = (G : Int) - ((A * (P.h / 2) + (i + 1) : Nat) : Int) := by
      rw [Int.natCast_add (A * (P.h / 2)), Int.natCast_mul]; omega
    rw [e1, e2]
    generalize A * (P.h / 2) + (i + 1) = o
    have hg : 0 < P.g := by omega
    have hs := same_group (o := o) hG
    have c1 : cmod ((G : Int) + o) P.g = G ↔ o % P.g = 0 := by
      rw [← hs.1, ← cmod_eq _ hg]; omega
    have c2 : cmod ((G : Int) - o) P.g = G ↔ o % P.g = 0 := by
      rw [← hs.2, ← cmod_eq _ hg]; omega
    by_cases h : o % P.g = 0
    · rw [if_neg (by simp [c1.2 h]), if_neg (by simp [c2.2 h]), if_neg (by simp [h])]
      rfl
    · rw [if_pos (fun e => h (c1.1 e)), if_pos (fun e => h (c2.1 e)), if_pos (by simp [h])]
      rfl

theorem pair_getElem? {α β : Type} (f f' : α → β) (l : List α) (i : Nat) :
    (l.flatMap fun x => [f x, f' x])[i]? = (l[i / 2]?).map fun x => if i % 2 = 0 then f x else f' x := by
  rw [flatMap_getElem? (n := 2) _ (by omega) l (fun _ _ => rfl)]
  cases l[i / 2]? with
  | none => rfl
  | some x =>
    simp only [Option.bind_some, Option.map_some]
    rcases Nat.mod_two_eq_zero_or_one i with h | h <;> rw [h] <;> simp

theorem circ_sym (P : Par) (hh : P.h % 2 = 0) : Sym P (circulant P) := by
  refine ⟨?_, ?_, ?_⟩
  · intro A G hA hG
    show (circConnected P A G).length ≤ P.h
    rw [circ_eq hG, length_flatMap_const (n := 2) _ _ (fun _ _ => rfl)]
    have : (offs P A).length ≤ P.h / 2 := by
      unfold offs
      refine Nat.le_trans (List.length_filter_le _ _) ?_
      simp
    omega
  · intro A G d hA hG hd
    have hd : d ∈ circConnected P A G := hd
    rw [circ_eq hG] at hd
    simp only [List.mem_flatMap, List.mem_cons, List.not_mem_nil, or_false] at hd
    obtain ⟨o, _, rfl | rfl⟩ := hd
    · rw [Nat.add_comm]; exact uid_lt hA (cmod_lt _ (by omega))
    · rw [Nat.add_comm]; exact uid_lt hA (cmod_lt _ (by omega))
  · intro A G i d hA hG hd hne
    have hd : (circConnected P A G)[i]? = some d := hd
    have hg : 0 < P.g := by omega
    rw [circ_eq hG, pair_getElem?, Option.map_eq_some_iff] at hd
    obtain ⟨o, ho, rfl⟩ := hd
    show (circConnected P _ _)[if i % 2 = 0 then i + 1 else i - 1]? = _ ∧ (if (if i % 2 = 0 then i + 1 else i - 1) % 2 = 0 then
      (if i % 2 = 0 then i + 1 else i - 1) + 1 else (if i % 2 = 0 then i + 1 else i - 1) - 1) = i
    rcases Nat.mod_two_eq_zero_or_one i with h | h
    · simp only [h, reduceIte]
      rw [mul_add_div' hA, mul_add_mod' hA, circ_eq (cmod_lt _ hg), pair_getElem?]
      have e1 : (i + 1) / 2 = i / 2 := by omega
      have e2 : (i + 1) % 2 = 1 := by omega
      refine ⟨?_, by rw [e2]; rfl⟩
      rw [e1, ho, e2]
      simp only [Option.map_some, Option.some.injEq, Nat.reduceEqDiff, reduceIte]
      have : cmod ((cmod ((G : Int) + o) P.g : Nat) - (o : Int)) P.g = G := by
        have := cmod_eq ((cmod ((G : Int) + o) P.g : Nat) - (o : Int)) hg
        rw [emod_back hG (cmod_eq _ hg)] at this
        omega
      rw [this, Nat.add_comm]
    · simp only [h, reduceIte, Nat.reduceEqDiff]
      rw [mul_add_div' hA, mul_add_mod' hA, circ_eq (cmod_lt _ hg), pair_getElem?]
      have e1 : (i - 1) / 2 = i / 2 := by omega
      have e2 : (i - 1) % 2 = 0 := by omega
      refine ⟨?_, by rw [e2]; simp; omega⟩
      rw [e1, ho, e2]
      simp only [Option.map_some, Option.some.injEq, reduceIte]
      have : cmod ((cmod ((G : Int) - o) P.g : Nat) + (o : Int)) P.g = G := by
        have h1 := cmod_eq ((cmod ((G : Int) - o) P.g : Nat) + (o : Int)) hg
        have h2 := emod_back (x := (cmod ((G : Int) - o) P.g : Nat)) (d := -(o : Int)) hG (cmod_eq _ hg)
        rw [Int.sub_neg] at h2
        rw [h2] at h1
        omega
      rw [this, Nat.add_comm]

theorem circ_far (P : Par) : Far P (circulant P) := by
  constructor
  intro G G' prev x hG hG' hne hx
  have hx : x ∈ circToGroup P G G' prev := hx
  unfold circToGroup at hx
  rw [List.mem_filterMap] at hx
  obtain ⟨a, ha, hx⟩ := hx
  rw [Option.map_eq_some_iff] at hx
  obtain ⟨c, hc, rfl⟩ := hx
  refine ⟨List.mem_range.1 ha, ?_⟩
  unfold firstIn at hc
  rw [List.findIdx?_eq_some_iff_getElem] at hc
  obtain ⟨hlt, hp, _⟩ := hc
  exact ⟨_, List.getElem_mem hlt, by simpa using hp⟩

/-! ### All to all -/

/-- What the constructor checks, dragonfly.cc:515-530 (with one group it divides by zero). -/
structure AllOk (P : Par) : Prop where
  g : 2 ≤ P.g
  a : 0 < P.a
  cov : covering P ≠ 0
  h : P.h % (P.g - 1) = 0
  str : P.a % covering P = 0

theorem others_eq (G n : Nat) : ((List.range n).filter fun g => g ≠ G) =
    (List.range (if n ≤ G then n else n - 1)).map fun i => if i < G then i else i + 1 := by
  induction n with
  | zero => simp
  | succ n ih =>
    rw [List.range_succ, List.filter_append, ih]
    rcases Nat.lt_trichotomy n G with h | h | h
    · rw [if_pos (by omega), if_pos (by omega), List.range_succ, List.map_append]
      congr 1
      simp only [List.map_cons, List.map_nil, if_pos h]
      simp; omega
    · subst h
      rw [if_pos (by omega), if_neg (by omega)]
      simp
    · rw [if_neg (by omega), if_neg (by omega)]
      obtain ⟨k, rfl⟩ : ∃ k, n = k + 1 := ⟨n - 1, by omega⟩
      rw [Nat.add_sub_cancel, Nat.add_sub_cancel, List.range_succ, List.map_append]
      congr 1
      simp only [List.map_cons, List.map_nil]
      rw [if_neg (by omega)]
      simp; omega

theorem all_getElem? {P : Par} (h : AllOk P) {A G : Nat} (hG : G < P.g) (i : Nat) :
    (allConnected P A G)[i]? = if i / covering P < P.g - 1 then
      some ((if i / covering P < G then i / covering P else i / covering P + 1) * P.a + (A + stride P * (i % covering P)) % P.a) else none := by
  have hc := Nat.pos_of_ne_zero h.cov
  unfold allConnected
  rw [flatMap_getElem? (n := covering P) _ hc _ (fun _ _ => by simp), others_eq, if_neg (by omega), List.getElem?_map]
  split
  · rename_i hi
    rw [List.getElem?_range hi]
    simp only [Option.map_some, Option.bind_some, List.getElem?_map]
    rw [List.getElem?_range (Nat.mod_lt _ hc)]
    rfl
  · rename_i hi
    rw [List.getElem?_eq_none (by rw [List.length_range]; omega)]
    rfl

theorem all_facts {P : Par} (h : AllOk P) : 0 < covering P ∧ 0 < stride P ∧ P.a = stride P * covering P ∧ P.h = (P.g - 1) * covering P := by
  have hc := Nat.pos_of_ne_zero h.cov
  have h1 : P.a = stride P * covering P := by
    unfold stride
    exact (Nat.div_mul_cancel (Nat.dvd_of_mod_eq_zero h.str)).symm
  refine ⟨hc, ?_, h1, ?_⟩
  · apply Nat.pos_of_ne_zero
    intro e
    rw [e, Nat.zero_mul] at h1
    have := h.a
    omega
  · unfold covering
    rw [Nat.mul_comm]
    exact (Nat.div_mul_cancel (Nat.dvd_of_mod_eq_zero h.h)).symm

/-- The switch `c` strides on, and the way back. -/
theorem stride_back {P : Par} (h : AllOk P) {A c : Nat} (hA : A < P.a) (hc : c < covering P) :
    modulo ((A : Int) - ((A + stride P * c) % P.a : Nat)) P.a / stride P = (covering P - c) % covering P ∧
    ((A + stride P * c) % P.a + stride P * ((covering P - c) % covering P)) % P.a = A := by
  obtain ⟨hcv, hst, ha, _⟩ := all_facts h
  have hsc : stride P * c < P.a := by rw [ha]; exact Nat.mul_lt_mul_of_pos_left hc hst
  have key : modulo ((A : Int) - ((A + stride P * c) % P.a : Nat)) P.a = stride P * ((covering P - c) % covering P) := by
    have := modulo_eq ((A : Int) - ((A + stride P * c) % P.a : Nat)) h.a
    have hr : (P.a - stride P * c) % P.a = stride P * ((covering P - c) % covering P) := by
      conv => lhs; rw [ha]
      rw [← Nat.mul_sub, Nat.mul_mod_mul_left]
    rw [← hr]
    have e : ((A : Int) - ((A + stride P * c) % P.a : Nat)) % P.a = ((P.a - stride P * c) % P.a : Nat) := by
      have h1 := Nat.div_add_mod (A + stride P * c) P.a
      have h2 := Nat.div_add_mod (P.a - stride P * c) P.a
      have hlt := Nat.mod_lt (P.a - stride P * c) h.a
      refine emod_eq_of (by omega) (by omega) (q := ((A + stride P * c) / P.a : Nat) + ((P.a - stride P * c) / P.a : Nat) - 1) ?_
      have h1' : (P.a : Int) * ((A + stride P * c) / P.a : Nat) + ((A + stride P * c) % P.a : Nat) = ((A + stride P * c : Nat) : Int) := by
        rw [← Int.natCast_mul, ← Int.natCast_add, h1]
      have h2' : (P.a : Int) * ((P.a - stride P * c) / P.a : Nat) + ((P.a - stride P * c) % P.a : Nat) = ((P.a - stride P * c : Nat) : Int) := by
        rw [← Int.natCast_mul, ← Int.natCast_add, h2]
      rw [Int.sub_mul, Int.add_mul, Int.one_mul, Int.mul_comm _ (P.a : Int), Int.mul_comm _ (P.a : Int)]
      omega
    rw [e] at this
    omega
  constructor
  · rw [key, Nat.mul_div_cancel_left _ hst]
  · rw [← key]
    have h1 := modulo_eq ((A : Int) - ((A + stride P * c) % P.a : Nat)) h.a
    have h2 := Int.emod_add_mul_ediv ((A : Int) - ((A + stride P * c) % P.a : Nat)) P.a
    have h3 : (((A + stride P * c) % P.a + modulo ((A : Int) - ((A + stride P * c) % P.a : Nat)) P.a : Nat) : Int) % P.a = A := by
      refine emod_eq_of (by omega) (by omega) (q := -(((A : Int) - ((A + stride P * c) % P.a : Nat)) / P.a)) ?_
      rw [Int.neg_mul, Int.mul_comm]
      omega
    omega

theorem all_sym (P : Par) (h : AllOk P) : Sym P (allToAll P) := by
  obtain ⟨hcv, hst, ha, hh⟩ := all_facts h
  refine ⟨?_, ?_, ?_⟩
  · intro A G hA hG
    show (allConnected P A G).length ≤ P.h
    unfold allConnected
    rw [length_flatMap_const (n := covering P) _ _ (fun _ _ => by simp), others_eq, if_neg (by omega), List.length_map, List.length_range, hh]
    exact Nat.le_refl _
  · intro A G d hA hG hd
    have hd : d ∈ allConnected P A G := hd
    unfold allConnected at hd
    simp only [List.mem_flatMap, List.mem_filter, List.mem_range, List.mem_map] at hd
    obtain ⟨g, ⟨hg, _⟩, c, _, rfl⟩ := hd
    rw [Nat.add_comm]
    exact uid_lt (Nat.mod_lt _ h.a) hg
  · intro A G i d hA hG hd hne
    have hd : (allConnected P A G)[i]? = some d := hd
    rw [all_getElem? h hG] at hd
    split at hd
    · rename_i hi
      cases hd
      have hB := Nat.mod_lt (A + stride P * (i % covering P)) h.a
      have hc := Nat.mod_lt i hcv
      obtain ⟨b1, b2⟩ := stride_back h hA hc
      have hc' := Nat.mod_lt (covering P - i % covering P) hcv
      obtain ⟨b3, b4⟩ := stride_back h hB hc'
      rw [mul_add_div' hB, mul_add_mod' hB]
      generalize hdG : (if i / covering P < G then i / covering P else i / covering P + 1) = dG
      have hdG' : dG < P.g ∧ dG ≠ G := by
        generalize i / covering P = z at *
        split at hdG <;> omega
      show (allConnected P ((A + stride P * (i % covering P)) % P.a) dG)[allInport P A G i ((A + stride P * (i % covering P)) % P.a) dG]? = _ ∧
        allInport P ((A + stride P * (i % covering P)) % P.a) dG (allInport P A G i ((A + stride P * (i % covering P)) % P.a) dG) A G = i
      have hport : allInport P A G i ((A + stride P * (i % covering P)) % P.a) dG =
          (if G < dG then G else G - 1) * covering P + (covering P - i % covering P) % covering P := by
        unfold allInport
        simp only [b1]
        split <;> rfl
      constructor
      · rw [hport, all_getElem? h hdG'.1, mul_add_div' hc', mul_add_mod' hc', if_pos (by split <;> omega)]
        rw [b2]
        simp only [Option.some.injEq]
        have : (if (if G < dG then G else G - 1) < dG then (if G < dG then G else G - 1) else (if G < dG then G else G - 1) + 1) = G := by
          split
          · rfl
          · split <;> omega
        rw [this]
        omega
      · unfold allInport
        simp only
        rw [b2] at b3
        rw [b3]
        have e1 : (covering P - (covering P - i % covering P) % covering P) % covering P = i % covering P := by
          by_cases hz : i % covering P = 0
          · rw [hz, Nat.sub_zero, Nat.mod_self, Nat.sub_zero, Nat.mod_self]
          · rw [Nat.mod_eq_of_lt (show covering P - i % covering P < covering P by omega)]
            rw [show covering P - (covering P - i % covering P) = i % covering P from by omega]
            exact Nat.mod_eq_of_lt hc
        rw [e1]
        have hi2 := Nat.div_add_mod i (covering P)
        rw [Nat.mul_comm] at hi2
        have : (if dG < G then dG else dG - 1) = i / covering P := by
          generalize i / covering P = z at *
          split at hdG <;> split <;> omega
        split
        · rename_i hlt
          rw [if_pos hlt] at this
          rw [this]; exact hi2
        · rename_i hlt
          rw [if_neg hlt] at this
          rw [this]; exact hi2
    · cases hd

theorem all_far (P : Par) (h : AllOk P) : Far P (allToAll P) := by
  obtain ⟨hcv, hst, ha, hh⟩ := all_facts h
  constructor
  intro G G' prev x hG hG' hne hx
  have hx : x ∈ allToGroup P G G' prev := hx
  unfold allToGroup at hx
  simp only [List.mem_flatMap, List.mem_map, List.mem_range] at hx
  obtain ⟨a, ha', c, hc, rfl⟩ := hx
  refine ⟨ha', G' * P.a + (a + stride P * 0) % P.a, ?_, mul_add_div' (Nat.mod_lt _ h.a)⟩
  show _ ∈ allConnected P a G
  unfold allConnected
  simp only [List.mem_flatMap, List.mem_filter, List.mem_range, List.mem_map]
  exact ⟨G', ⟨hG', by simpa using fun e => hne e.symm⟩, 0, hcv, rfl⟩

/-! ### Single -/

theorem delta_even (k : Nat) : plusMinus (2 * k) = 1 ∧ deltaG (2 * k) = k + 1 := by
  have h1 : 2 * k % 2 = 0 := by omega
  have h2 : 2 * k / 2 = k := by omega
  unfold deltaG plusMinus
  rw [h1, h2]
  constructor
  · rfl
  · simp; omega

theorem delta_odd (k : Nat) : plusMinus (2 * k + 1) = -1 ∧ deltaG (2 * k + 1) = -(k + 1 : Int) := by
  have h1 : (2 * k + 1) % 2 = 1 := by omega
  have h2 : (2 * k + 1) / 2 = k := by omega
  unfold deltaG plusMinus
  rw [h1, h2]
  constructor
  · rfl
  · simp; omega

theorem single_sym (P : Par) (ha : 0 < P.a) (hh : P.h = 1) (he : P.a % 2 = 0 ∨ (P.a + 1) % P.g = 0) : Sym P (single P) := by
  refine ⟨?_, ?_, ?_⟩
  · intro A G _ _
    show (singleConnected P A G).length ≤ P.h
    rw [hh]; exact Nat.le_refl _
  · intro A G d hA hG hd
    have hd : d ∈ singleConnected P A G := hd
    unfold singleConnected at hd
    simp only [List.mem_singleton] at hd
    rw [hd, Nat.add_comm]
    exact uid_lt (modulo_lt _ ha) (modulo_lt _ (by omega))
  · intro A G i d hA hG hd hne
    have hd : (singleConnected P A G)[i]? = some d := hd
    have hg : 0 < P.g := by omega
    unfold singleConnected at hd
    simp only at hd
    have hi : i = 0 := by
      cases i with
      | zero => rfl
      | succ i => simp at hd
    subst hi
    rw [List.getElem?_cons_zero, Option.some.injEq] at hd
    subst hd
    have hmA := modulo_lt ((A : Int) + if P.a % 2 ≠ 0 ∧ A = P.a - 1 then 0 else plusMinus A) ha
    rw [mul_add_div' hmA, mul_add_mod' hmA]
    refine ⟨?_, rfl⟩
    show (singleConnected P _ _)[0]? = _
    unfold singleConnected
    simp only [List.getElem?_cons_zero, Option.some.injEq]
    generalize hdA : (if P.a % 2 ≠ 0 ∧ A = P.a - 1 then (0 : Int) else plusMinus A) = dA at hmA ⊢
    -- the switch at the far end, and what it does
    have hback : ∀ (B : Nat), modulo ((A : Int) + dA) P.a = B → (hB : ∃ q : Int, deltaG A + deltaG B = q * P.g) →
        (hBA : (B : Int) + (if P.a % 2 ≠ 0 ∧ B = P.a - 1 then 0 else plusMinus B) = A) →
        modulo ((modulo ((G : Int) + deltaG A) P.g : Nat) + deltaG B) P.g * P.a +
          modulo ((B : Int) + (if P.a % 2 ≠ 0 ∧ B = P.a - 1 then 0 else plusMinus B)) P.a = A + G * P.a := by
      intro B _ hB hBA
      obtain ⟨q, hq⟩ := hB
      have e1 : modulo ((modulo ((G : Int) + deltaG A) P.g : Nat) + deltaG B) P.g = G := by
        have h1 := modulo_eq ((modulo ((G : Int) + deltaG A) P.g : Nat) + deltaG B) hg
        have h2 := modulo_eq ((G : Int) + deltaG A) hg
        have h3 := Int.emod_add_mul_ediv ((G : Int) + deltaG A) P.g
        have h4 : ((modulo ((G : Int) + deltaG A) P.g : Nat) + deltaG B) % (P.g : Int) = G := by
          refine emod_eq_of (by omega) (by omega) (q := q - ((G : Int) + deltaG A) / P.g) ?_
          rw [Int.sub_mul, Int.mul_comm _ (P.g : Int), Int.mul_comm _ (P.g : Int)]
          rw [Int.mul_comm] at hq
          omega
        omega
      have e2 : modulo ((B : Int) + (if P.a % 2 ≠ 0 ∧ B = P.a - 1 then 0 else plusMinus B)) P.a = A := by
        rw [hBA]
        have h1 := modulo_eq (A : Int) ha
        have h2 : (A : Int) % P.a = A := Int.emod_eq_of_lt (by omega) (by omega)
        omega
      rw [e1, e2, Nat.add_comm]
    have small : ∀ (z : Nat), z < P.a → modulo (z : Int) P.a = z := by
      intro z hz
      have h1 := modulo_eq (z : Int) ha
      have h2 : (z : Int) % P.a = z := Int.emod_eq_of_lt (by omega) (by omega)
      omega
    by_cases hlast : P.a % 2 ≠ 0 ∧ A = P.a - 1
    · rw [if_pos hlast] at hdA
      subst hdA
      have hm : modulo ((A : Int) + 0) P.a = A := by rw [Int.add_zero]; exact small A hA
      rw [hm]
      refine hback A hm ?_ (by rw [if_pos hlast]; omega)
      obtain ⟨k, hk⟩ : ∃ k, A = 2 * k := ⟨A / 2, by omega⟩
      rcases he with he | he
      · omega
      · obtain ⟨c, hc⟩ := Nat.dvd_of_mod_eq_zero he
        refine ⟨c, ?_⟩
        have : ((P.a + 1 : Nat) : Int) = P.g * c := by rw [hc]; simp
        rw [hk, (delta_even k).2, Int.mul_comm]
        omega
    · rw [if_neg hlast] at hdA
      subst hdA
      rcases Nat.mod_two_eq_zero_or_one A with h2 | h2
      · obtain ⟨k, rfl⟩ : ∃ k, A = 2 * k := ⟨A / 2, by omega⟩
        have hm : modulo ((2 * k : Nat) + plusMinus (2 * k)) P.a = 2 * k + 1 := by
          rw [(delta_even k).1]
          exact small (2 * k + 1) (by omega)
        rw [hm]
        refine hback (2 * k + 1) hm ⟨0, ?_⟩ ?_
        · rw [(delta_even k).2, (delta_odd k).2]; omega
        · rw [if_neg (by omega), (delta_odd k).1]; omega
      · obtain ⟨k, rfl⟩ : ∃ k, A = 2 * k + 1 := ⟨A / 2, by omega⟩
        have hm : modulo ((2 * k + 1 : Nat) + plusMinus (2 * k + 1)) P.a = 2 * k := by
          rw [(delta_odd k).1]
          have := small (2 * k) (by omega)
          rw [show ((2 * k + 1 : Nat) : Int) + -1 = ((2 * k : Nat) : Int) from by omega]
          exact this
        rw [hm]
        refine hback (2 * k) hm ⟨0, ?_⟩ ?_
        · rw [(delta_even k).2, (delta_odd k).2]; omega
        · rw [if_neg (by omega), (delta_even k).1]; omega

/-- With at least `g - 1` switches in a group some switch leads to each other group. -/
theorem single_cover {P : Par} {G G' : Nat} (hc : P.g ≤ P.a + 1) (hG : G < P.g) (hG' : G' < P.g) (hne : G ≠ G') :
    ∃ a, a < P.a ∧ ((G : Int) + deltaG a + P.g).tmod P.g = G' := by
  have main : ∃ a, a < P.a ∧ ∃ q : Int, (G : Int) + deltaG a + P.g = G' + q * P.g ∧ 0 ≤ (G : Int) + deltaG a + P.g := by
    by_cases hlt : G < G'
    · by_cases h2 : 2 * (G' - G) ≤ P.g
      · refine ⟨2 * (G' - G - 1), by omega, 1, ?_⟩
        rw [(delta_even _).2]; omega
      · refine ⟨2 * (P.g - (G' - G) - 1) + 1, by omega, 0, ?_⟩
        rw [(delta_odd _).2]; omega
    · by_cases h2 : 2 * (G - G') < P.g
      · refine ⟨2 * (G - G' - 1) + 1, by omega, 1, ?_⟩
        rw [(delta_odd _).2]; omega
      · refine ⟨2 * (P.g - (G - G') - 1), by omega, 2, ?_⟩
        rw [(delta_even _).2]; omega
  obtain ⟨a, ha, q, hq, h0⟩ := main
  refine ⟨a, ha, ?_⟩
  rw [Int.tmod_eq_emod_of_nonneg h0]
  exact emod_eq_of (by omega) (by omega) hq

theorem foldl_last {α : Type} {p : α → Prop} [DecidablePred p] {f : α → Nat × Nat} (l : List α) (x : Nat × Nat) :
    (∃ a ∈ l, p a ∧ l.foldl (fun x a => if p a then f a else x) x = f a) ∨
    ((∀ a ∈ l, ¬ p a) ∧ l.foldl (fun x a => if p a then f a else x) x = x) := by
  induction l generalizing x with
  | nil => right; simp
  | cons b l ih =>
    rw [List.foldl_cons]
    rcases ih (if p b then f b else x) with ⟨a, ha, hp, e⟩ | ⟨hn, e⟩
    · exact Or.inl ⟨a, by simp [ha], hp, e⟩
    · rw [e]
      by_cases hb : p b
      · exact Or.inl ⟨b, by simp, hb, by rw [if_pos hb]⟩
      · right
        refine ⟨?_, by rw [if_neg hb]⟩
        intro a ha
        rcases List.mem_cons.1 ha with rfl | ha
        · exact hb
        · exact hn a ha

theorem single_far (P : Par) (ha : 0 < P.a) (hc : P.g ≤ P.a + 1) : Far P (single P) := by
  constructor
  intro G G' prev x hG hG' hne hx
  have hx : x ∈ singleToGroup P G G' prev := hx
  unfold singleToGroup at hx
  simp only [List.mem_singleton] at hx
  rcases foldl_last (p := fun a => ((G : Int) + deltaG a + P.g).tmod P.g = G') (f := fun a => (a, 0)) (List.range P.a)
      (prev.headD (0, 0)) with ⟨a, hmem, hp, e⟩ | ⟨hn, e⟩
  · rw [e] at hx
    subst hx
    refine ⟨List.mem_range.1 hmem, _, List.mem_singleton.2 rfl, ?_⟩
    rw [mul_add_div' (modulo_lt _ ha)]
    have hg : 0 < P.g := by omega
    have h1 := modulo_eq ((G : Int) + deltaG a) hg
    obtain ⟨q, hq⟩ := tmod_spec ((G : Int) + deltaG a + P.g) P.g
    rw [hp] at hq
    have : ((G : Int) + deltaG a) % P.g = G' := by
      refine emod_eq_of (by omega) (by omega) (q := q - 1) ?_
      rw [Int.sub_mul]; omega
    show modulo ((G : Int) + deltaG a) P.g = G'
    omega
  · obtain ⟨a, ha', hp⟩ := single_cover hc hG hG' hne
    exact absurd hp (hn a (List.mem_range.2 ha'))

end SST.Topo.Dragonfly
