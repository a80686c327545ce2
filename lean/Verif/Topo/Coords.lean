/-
Switch coordinates of Cartesian topologies (sstmac/hardware/topology/torus.cc): a switch
number is written in mixed radix, least significant digit first.
-/
set_option autoImplicit false
namespace SST.Topo

/-- Number of switches, torus.cc:59-64. -/
def size : List Nat → Nat
  | [] => 1
  | D :: ds => D * size ds

/-- The loop of `Torus::switchCoords`, torus.cc:190-201. -/
def coordsGo (uid : Nat) : Nat → List Nat → List Nat
  | _, [] => []
  | div, D :: ds => (uid / div) % D :: coordsGo uid (div * D) ds

/-- `Torus::switchCoords`, torus.cc:190-201. -/
def switchCoords (dims : List Nat) (uid : Nat) : List Nat := coordsGo uid 1 dims

/-- The loop of `Torus::switchAddr`, torus.cc:203-213. -/
def addrGo : Nat → Nat → List Nat → List Nat → Nat
  | ret, _, [], _ => ret
  | ret, _, _ :: _, [] => ret
  | ret, mult, D :: ds, c :: cs => addrGo (ret + c * mult) (mult * D) ds cs

/-- `Torus::switchAddr`, torus.cc:203-213. -/
def switchAddr (dims coords : List Nat) : Nat := addrGo 0 1 dims coords

/-! ### The same without running products -/

/-- Digits of `s`. -/
def coords : List Nat → Nat → List Nat
  | [], _ => []
  | D :: ds, s => s % D :: coords ds (s / D)

/-- The number with given digits. -/
def addr : List Nat → List Nat → Nat
  | [], _ => 0
  | _ :: _, [] => 0
  | D :: ds, c :: cs => c + D * addr ds cs

/-- Change digit `k` to `x`. -/
def setAt : List Nat → Nat → Nat → Nat → Nat
  | [], _, _, s => s
  | D :: _, 0, x, s => x + D * (s / D)
  | D :: ds, k + 1, x, s => s % D + D * setAt ds k x (s / D)

theorem coordsGo_eq (uid : Nat) (dims : List Nat) : ∀ div, coordsGo uid div dims = coords dims (uid / div) := by
  induction dims with
  | nil => intro div; rfl
  | cons D ds ih =>
    intro div
    simp only [coordsGo, coords, ih, Nat.div_div_eq_div_mul]

theorem switchCoords_eq (dims : List Nat) (uid : Nat) : switchCoords dims uid = coords dims uid := by
  simp [switchCoords, coordsGo_eq]

theorem addrGo_eq (dims : List Nat) : ∀ cs ret mult, addrGo ret mult dims cs = ret + mult * addr dims cs := by
  induction dims with
  | nil => intro cs ret mult; simp [addrGo, addr]
  | cons D ds ih =>
    intro cs ret mult
    cases cs with
    | nil => simp [addrGo, addr]
    | cons c cs =>
      simp only [addrGo, addr, ih, Nat.mul_add, Nat.mul_assoc]
      rw [Nat.mul_comm mult c, Nat.add_assoc]

theorem switchAddr_eq (dims cs : List Nat) : switchAddr dims cs = addr dims cs := by
  simp [switchAddr, addrGo_eq]

/-- The digits are in range. -/
def InRange : List Nat → List Nat → Prop
  | [], [] => True
  | D :: ds, c :: cs => c < D ∧ InRange ds cs
  | _, _ => False

theorem size_pos {dims : List Nat} (h : ∀ D ∈ dims, 0 < D) : 0 < size dims := by
  induction dims with
  | nil => simp [size]
  | cons D ds ih =>
    simp only [size]
    exact Nat.mul_pos (h D (by simp)) (ih (fun d hd => h d (by simp [hd])))

theorem coords_inRange {dims : List Nat} (h : ∀ D ∈ dims, 0 < D) : ∀ s, InRange dims (coords dims s) := by
  induction dims with
  | nil => intro s; trivial
  | cons D ds ih =>
    intro s
    exact ⟨Nat.mod_lt _ (h D (by simp)), ih (fun d hd => h d (by simp [hd])) _⟩

theorem addr_coords (dims : List Nat) : ∀ s, s < size dims → addr dims (coords dims s) = s := by
  induction dims with
  | nil => intro s hs; simp [size] at hs; simp [addr, hs]
  | cons D ds ih =>
    intro s hs
    simp only [size] at hs
    simp only [addr, coords]
    rw [ih _ (Nat.div_lt_of_lt_mul hs), Nat.mod_add_div]

theorem coords_addr (dims : List Nat) : ∀ cs, InRange dims cs → coords dims (addr dims cs) = cs := by
  induction dims with
  | nil => intro cs h; cases cs with
    | nil => rfl
    | cons => exact h.elim
  | cons D ds ih =>
    intro cs h
    cases cs with
    | nil => exact h.elim
    | cons c cs =>
      obtain ⟨h1, h2⟩ := h
      simp only [coords, addr]
      rw [Nat.add_mul_mod_self_left, Nat.mod_eq_of_lt h1, Nat.add_mul_div_left _ _ (by omega),
        Nat.div_eq_of_lt h1, Nat.zero_add, ih cs h2]

theorem addr_lt (dims : List Nat) : ∀ cs, InRange dims cs → addr dims cs < size dims := by
  induction dims with
  | nil => intro cs _; simp [addr, size]
  | cons D ds ih =>
    intro cs h
    cases cs with
    | nil => exact h.elim
    | cons c cs =>
      obtain ⟨h1, h2⟩ := h
      have := ih cs h2
      simp only [addr, size]
      have h3 : D * (addr ds cs + 1) ≤ D * size ds := Nat.mul_le_mul (Nat.le_refl _) this
      rw [Nat.mul_add] at h3
      omega

theorem coords_length (dims : List Nat) : ∀ s, (coords dims s).length = dims.length := by
  induction dims with
  | nil => intro s; rfl
  | cons D ds ih => intro s; simp [coords, ih]

theorem coords_inj {dims : List Nat} {s t : Nat} (hs : s < size dims) (ht : t < size dims)
    (h : coords dims s = coords dims t) : s = t := by
  rw [← addr_coords dims s hs, ← addr_coords dims t ht, h]

theorem setAt_coords (dims : List Nat) : (∀ D ∈ dims, 0 < D) → ∀ k x s (D : Nat), dims[k]? = some D → x < D →
    coords dims (setAt dims k x s) = (coords dims s).set k x := by
  induction dims with
  | nil => intro _ k x s D h; simp at h
  | cons E ds ih =>
    intro hpos k x s D h hx
    have hE : 0 < E := hpos E (by simp)
    cases k with
    | zero =>
      simp only [List.getElem?_cons_zero, Option.some.injEq] at h
      subst h
      simp only [setAt, coords, List.set_cons_zero]
      rw [Nat.add_mul_mod_self_left, Nat.mod_eq_of_lt hx, Nat.add_mul_div_left _ _ (by omega),
        Nat.div_eq_of_lt hx, Nat.zero_add]
    | succ k =>
      simp only [List.getElem?_cons_succ] at h
      simp only [setAt, coords, List.set_cons_succ]
      rw [Nat.add_mul_mod_self_left, Nat.mod_mod, Nat.add_mul_div_left _ _ hE,
        Nat.div_eq_of_lt (Nat.mod_lt _ hE), Nat.zero_add, ih (fun d hd => hpos d (by simp [hd])) k x _ D h hx]

theorem setAt_lt (dims : List Nat) : ∀ k x s (D : Nat), dims[k]? = some D → x < D → s < size dims →
    setAt dims k x s < size dims := by
  induction dims with
  | nil => intro k x s D h; simp at h
  | cons E ds ih =>
    intro k x s D h hx hs
    simp only [size] at hs
    have hE : 0 < E := by
      rcases Nat.eq_zero_or_pos E with h0 | h0
      · subst h0; omega
      · exact h0
    have hd := Nat.div_lt_of_lt_mul hs
    cases k with
    | zero =>
      simp only [List.getElem?_cons_zero, Option.some.injEq] at h
      subst h
      simp only [setAt, size]
      have h3 : E * (s / E + 1) ≤ E * size ds := Nat.mul_le_mul (Nat.le_refl _) hd
      rw [Nat.mul_add] at h3
      omega
    | succ k =>
      simp only [List.getElem?_cons_succ] at h
      simp only [setAt, size]
      have h3 : E * (setAt ds k x (s / E) + 1) ≤ E * size ds :=
        Nat.mul_le_mul (Nat.le_refl _) (ih k x _ D h hx hd)
      rw [Nat.mul_add] at h3
      have := Nat.mod_lt s hE
      omega

/-- Product of the first `k` dimensions: the stride of dimension `k`. -/
def stride : List Nat → Nat → Nat
  | _, 0 => 1
  | [], _ + 1 => 1
  | D :: ds, k + 1 => D * stride ds k

/-- Digit `k`. -/
def digit : List Nat → Nat → Nat → Nat
  | [], _, _ => 0
  | D :: _, 0, s => s % D
  | D :: ds, k + 1, s => digit ds k (s / D)

theorem digit_eq (dims : List Nat) : ∀ k s (D : Nat), dims[k]? = some D → digit dims k s = (s / stride dims k) % D := by
  induction dims with
  | nil => intro k s D h; simp at h
  | cons E ds ih =>
    intro k s D h
    cases k with
    | zero =>
      simp only [List.getElem?_cons_zero, Option.some.injEq] at h
      simp [digit, stride, h]
    | succ k =>
      simp only [List.getElem?_cons_succ] at h
      simp only [digit, stride]
      rw [ih k _ D h, Nat.div_div_eq_div_mul]

theorem digit_coords (dims : List Nat) : ∀ k s, k < dims.length → (coords dims s)[k]? = some (digit dims k s) := by
  induction dims with
  | nil => intro k s h; simp at h
  | cons E ds ih =>
    intro k s h
    cases k with
    | zero => simp [coords, digit]
    | succ k =>
      simp only [coords, digit, List.getElem?_cons_succ]
      exact ih k _ (by simpa using h)

theorem digit_lt {dims : List Nat} {k s D : Nat} (h : dims[k]? = some D) (hD : 0 < D) : digit dims k s < D := by
  rw [digit_eq dims k s D h]
  exact Nat.mod_lt _ hD

/-- Moving along dimension `k` by the difference of the digits. -/
theorem setAt_int (dims : List Nat) : ∀ k x s (D : Nat), dims[k]? = some D →
    ((setAt dims k x s : Nat) : Int) = s + ((x : Int) - digit dims k s) * stride dims k := by
  induction dims with
  | nil => intro k x s D h; simp at h
  | cons E ds ih =>
    intro k x s D h
    have hs : ((s % E : Nat) : Int) + (E : Int) * ((s / E : Nat) : Int) = s := by
      rw [← Int.natCast_mul, ← Int.natCast_add, Nat.mod_add_div]
    cases k with
    | zero =>
      simp only [setAt, digit, stride, Int.natCast_add, Int.natCast_mul]
      omega
    | succ k =>
      simp only [List.getElem?_cons_succ] at h
      simp only [setAt, digit, stride, Int.natCast_add, Int.natCast_mul]
      rw [ih k x _ D h, Int.mul_add, ← Int.add_assoc, hs, Int.mul_left_comm]

theorem digit_setAt {dims : List Nat} (hpos : ∀ D ∈ dims, 0 < D) {k x s D : Nat} (h : dims[k]? = some D)
    (hx : x < D) (j : Nat) (hj : j < dims.length) :
    digit dims j (setAt dims k x s) = if j = k then x else digit dims j s := by
  have h1 := digit_coords dims j (setAt dims k x s) hj
  rw [setAt_coords dims hpos k x s D h hx, List.getElem?_set, digit_coords dims j s hj] at h1
  have hl : k < (coords dims s).length := by
    rw [coords_length]
    exact (List.getElem?_eq_some_iff.1 h).1
  by_cases hjk : j = k
  · subst hjk
    rw [if_pos rfl, if_pos hl] at h1
    simpa using h1.symm
  · rw [if_neg (by omega)] at h1
    rw [if_neg hjk]
    simpa using h1.symm

theorem setAt_digit (dims : List Nat) : ∀ k s, setAt dims k (digit dims k s) s = s := by
  induction dims with
  | nil => intro k s; rfl
  | cons E ds ih =>
    intro k s
    cases k with
    | zero => simp [setAt, digit, Nat.mod_add_div]
    | succ k => simp [setAt, digit, ih, Nat.mod_add_div]

theorem setAt_setAt {dims : List Nat} (hpos : ∀ D ∈ dims, 0 < D) {k x y s D : Nat} (h : dims[k]? = some D)
    (hx : x < D) (hy : y < D) (hs : s < size dims) :
    setAt dims k y (setAt dims k x s) = setAt dims k y s := by
  apply coords_inj (dims := dims)
  · exact setAt_lt dims k y _ D h hy (setAt_lt dims k x _ D h hx hs)
  · exact setAt_lt dims k y _ D h hy hs
  · rw [setAt_coords dims hpos k y _ D h hy, setAt_coords dims hpos k x s D h hx,
      setAt_coords dims hpos k y s D h hy, List.set_set]

theorem eq_of_digits {dims : List Nat} {s t : Nat} (hs : s < size dims) (ht : t < size dims)
    (h : ∀ k, k < dims.length → digit dims k s = digit dims k t) : s = t := by
  apply coords_inj hs ht
  apply List.ext_getElem?
  intro i
  by_cases hi : i < dims.length
  · rw [digit_coords dims i s hi, digit_coords dims i t hi, h i hi]
  · rw [List.getElem?_eq_none (by rw [coords_length]; omega), List.getElem?_eq_none (by rw [coords_length]; omega)]

end SST.Topo
